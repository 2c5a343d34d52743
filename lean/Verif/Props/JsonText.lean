import Verif.Lemmas.JsonText
import Verif.Lemmas.Dict
import Verif.Props.Disk
/-!
# C158: the text of graph files
-/
namespace Nxt.Props
open Spec JsonText Dict

namespace Txt

/-- Data of a small file, with a text in three alphabets, a quote, a line end and a character beyond the first 65536. -/
def exTextData : List (Str × Val) :=
  [("version".toList, .str "1.17".toList), ("nodes".toList, .dict [("/a".toList, .dict [("code".toList,
    .list [.str "x = \"é\"\n".toList, .str [Char.ofNat 0x1f600]]), ("n".toList, .num (-120)), ("e".toList, .dict [])])]),
    ("mute".toList, .bool false), ("z".toList, .list []), ("o".toList, .none)]

theorem exTextData_json : JsonVal (.dict exTextData) := by
  refine .dict _ ?_
  simp only [exTextData, List.forall_mem_cons, List.not_mem_nil, false_implies, implies_true, and_true]
  refine ⟨.str _, .dict _ ?_, .bool _, .list _ (by simp), .none⟩
  simp only [List.forall_mem_cons, List.not_mem_nil, false_implies, implies_true, and_true]
  refine .dict _ ?_
  simp only [List.forall_mem_cons, List.not_mem_nil, false_implies, implies_true, and_true]
  refine ⟨.list _ ?_, .num _, .dict _ (by simp)⟩
  simp only [List.forall_mem_cons, List.not_mem_nil, false_implies, implies_true, and_true]
  exact ⟨.str _, .str _⟩

end Txt
open Txt

/-- C158: what is read from the text of a value is the value: keys and items in their order, every character of every
text and the sign of every number. -/
theorem C158_read_back (others : Nat → Str) (level : Nat) {v : Val} (hv : JsonVal v) :
    loadText (dump others level v) = some v := by
  rw [loadText_dump others level (textVal_json v hv), written_json v hv]

example : loadText (dump (fun _ => []) 0 (.dict exTextData)) = some (.dict exTextData) :=
  C158_read_back _ _ exTextData_json

/-- The text itself. -/
example : dump (fun _ => []) 0 (.dict [("a".toList, .list [.num (-12), .str "é\n".toList]), ("b".toList, .dict [])]) =
    "{\n    \"a\": [\n        -12,\n        \"\\u00e9\\n\"\n    ],\n    \"b\": {}\n}".toList := by
  have e : intText (-12) = "-12".toList := by
    show '-' :: Names.dec 12 = _
    rw [Names.dec, if_neg (by decide), Names.dec, if_pos (by decide)]
    decide
  simp only [dump, dumpItems, dumpPairs, e]
  decide

/-- C158: two values with the same text are the same. -/
theorem C158_same_text (others others' : Nat → Str) (level : Nat) {v w : Val} (hv : JsonVal v) (hw : JsonVal w)
    (h : dump others level v = dump others' level w) : v = w := by
  have h1 := C158_read_back others level hv
  rw [h, C158_read_back others' level hw] at h1
  exact (Option.some.inj h1).symm

example : dump (fun _ => []) 0 (.str "1".toList) ≠ dump (fun _ => []) 0 (.num 1) := by
  intro h
  have := C158_same_text _ _ 0 (.str _) (.num _) h
  cases this

/-- C158: the text holds printable ASCII and line ends only, so that it is the same in whatever encoding the file is
opened (neither `open` names one), and no line end of a text in it is changed on the way. -/
theorem C158_ascii (others : Nat → Str) (level : Nat) {v : Val} (hv : TextVal v) :
    ∀ c ∈ dump others level v, Printable c := dump_printable others v hv level

example : ∀ c ∈ dump (fun _ => []) 0 (.dict exTextData), Printable c :=
  C158_ascii _ _ (textVal_json _ exTextData_json)

/-- C158: saving data leaves on the disk what the reader gives for the text of the data; sources come back as lists. -/
theorem C158_disk (files : Disk.Files) (data : List (Str × Val)) (p : Str) (others : Nat → Str)
    (hd : TextVal (.dict data)) (hs : (Disk.saveFileData files data (some p) false).1 = .ok p) :
    ∃ e, get? p (Disk.saveFileData files data (some p) false).2 = some (.json e) ∧
      loadText (dump others 0 (.dict data)) = some (.dict e) := by
  refine ⟨Disk.writtenDict data, ?_, loadText_dump others 0 hd⟩
  unfold Disk.saveFileData at hs ⊢
  simp only [Bool.false_eq_true, if_false] at hs ⊢
  split at hs
  · cases hs
  · rename_i h1
    rw [if_neg h1]
    split at hs
    · rename_i h2
      rw [if_pos h2]
      rw [get?_set, if_pos rfl]
    · cases hs

example : (Disk.saveFileData [] exTextData (some "/g.nxt".toList) false).1 = .ok "/g.nxt".toList := rfl

/-- C158: no part of the text of a file is read as a file: a writer stopped before the end leaves a file which is
refused, not one with less in it. -/
theorem C158_cut (others : Nat → Str) {d : List (Str × Val)} (hd : TextVal (.dict d)) {p q : Str} (hq : q ≠ [])
    (h : p ++ q = dump others 0 (.dict d)) : loadText p = none := loadText_prefix others hd hq h

/-- One character is missing. -/
example : loadText (dump (fun _ => []) 0 (.dict exTextData)).dropLast = none := by
  exact C158_cut (fun _ => []) (textVal_json _ exTextData_json) (by simp)
    (List.dropLast_concat_getLast (by rw [dump]; simp [exTextData]))

/-- C158: when there is an object in the data, what is written before it is not read as a file: the text `p` does not
depend on what is written for the object. -/
theorem C158_unfinished {d : List (Str × Val)} (hd : HoldsObject (.dict d)) {p : Str}
    (h : ∀ others, p <+: dump others 0 (.dict d)) : loadText p = none := by
  obtain ⟨q, hq⟩ := h (fun _ => "null".toList)
  have hl := dump_length (.dict d) 0
  have hc := count_pos hd
  have h0 := (h (fun _ => [])).length_le
  rw [← dump_plain, plain] at hq
  refine loadText_prefix _ (textVal_plain (.dict d)) ?_ hq
  rintro rfl
  have := congrArg List.length hq
  rw [List.append_nil, ← plain, dump_plain] at this
  omega

example : loadText "{\n    \"a\": ".toList = none :=
  C158_unfinished (d := [("a".toList, .other 0 true false)])
    (.dict _ _ List.mem_cons_self (.other _ _ _)) (fun o => ⟨o 0 ++ "\n}".toList, by simp [dump, dumpPairs, quote, newline, escape]⟩)

namespace Txt

theorem items_split (others : Nat → Str) (level : Nat) (v : Val) (after : List Val) :
    ∀ (before : List Val) (sep : Str), ∃ sep', ∀ w, dumpItems others level sep (before ++ w :: after) =
      dumpItems others level sep before ++ sep' ++ newline level ++ dump others level w ++ dumpItems others level [','] after
  | [], sep => ⟨sep, fun w => by simp [dumpItems]⟩
  | x :: before, sep => by
    obtain ⟨sep', h⟩ := items_split others level v after before [',']
    exact ⟨sep', fun w => by rw [List.cons_append, dumpItems, h w, dumpItems]; simp⟩

theorem pairs_split (others : Nat → Str) (level : Nat) (k : Str) (after : List (Str × Val)) :
    ∀ (before : List (Str × Val)) (sep : Str), ∃ sep', ∀ w, dumpPairs others level sep (before ++ (k, w) :: after) =
      dumpPairs others level sep before ++ sep' ++ newline level ++ quote k ++ ": ".toList ++ dump others level w ++
        dumpPairs others level [','] after
  | [], sep => ⟨sep, fun w => by simp [dumpPairs]⟩
  | (x, y) :: before, sep => by
    obtain ⟨sep', h⟩ := pairs_split others level k after before [',']
    exact ⟨sep', fun w => by rw [List.cons_append, dumpPairs, h w, dumpPairs]; simp⟩

end Txt

/-- C158: when one value somewhere in the data is replaced, the text changes in one place only, from the text of the old
value to that of the new one; what stands before and after is the same. -/
theorem C158_one_place (others : Nat → Str) {a b : Val} {depth : Nat} {v w : Val} (h : OneChange a b depth v w) :
    ∀ level, ∃ pre post, dump others level v = pre ++ dump others (level + depth) a ++ post ∧
      dump others level w = pre ++ dump others (level + depth) b ++ post := by
  induction h with
  | here => exact fun level => ⟨[], [], by simp, by simp⟩
  | item depth before after v w _ ih =>
    intro level
    obtain ⟨pre, post, h1, h2⟩ := ih (level + 1)
    obtain ⟨sep, hs⟩ := items_split others (level + 1) v after before []
    have e : ∀ x, dump others level (.list (before ++ x :: after)) = ('[' :: dumpItems others (level + 1) [] before ++ sep ++
        newline (level + 1)) ++ dump others (level + 1) x ++ (dumpItems others (level + 1) [','] after ++ newline level ++ [']']) := by
      intro x
      rw [dump, if_neg (by simp), hs x]
      simp
    refine ⟨('[' :: dumpItems others (level + 1) [] before ++ sep ++ newline (level + 1)) ++ pre,
      post ++ (dumpItems others (level + 1) [','] after ++ newline level ++ [']']), ?_, ?_⟩
    · rw [e v, h1, show level + 1 + depth = level + (depth + 1) by omega]; simp
    · rw [e w, h2, show level + 1 + depth = level + (depth + 1) by omega]; simp
  | entry depth before after k v w _ ih =>
    intro level
    obtain ⟨pre, post, h1, h2⟩ := ih (level + 1)
    obtain ⟨sep, hs⟩ := pairs_split others (level + 1) k after before []
    have e : ∀ x, dump others level (.dict (before ++ (k, x) :: after)) = ('{' :: dumpPairs others (level + 1) [] before ++ sep ++
        newline (level + 1) ++ quote k ++ ": ".toList) ++ dump others (level + 1) x ++
        (dumpPairs others (level + 1) [','] after ++ newline level ++ ['}']) := by
      intro x
      rw [dump, if_neg (by simp), hs x]
      simp
    refine ⟨('{' :: dumpPairs others (level + 1) [] before ++ sep ++ newline (level + 1) ++ quote k ++ ": ".toList) ++ pre,
      post ++ (dumpPairs others (level + 1) [','] after ++ newline level ++ ['}']), ?_, ?_⟩
    · rw [e v, h1, show level + 1 + depth = level + (depth + 1) by omega]; simp
    · rw [e w, h2, show level + 1 + depth = level + (depth + 1) by omega]; simp

/-- One line of code of a node. -/
example : OneChange (.str "x = 1".toList) (.str "x = 2".toList) 3
    (.dict [("version".toList, .none), ("nodes".toList, .dict [("code".toList, .list [.str "x = 1".toList, .none])])])
    (.dict [("version".toList, .none), ("nodes".toList, .dict [("code".toList, .list [.str "x = 2".toList, .none])])]) :=
  .entry 2 [("version".toList, .none)] [] "nodes".toList _ _
    (.entry 1 [] [] "code".toList _ _ (.item 0 [] [.none] _ _ .here))

namespace Txt

theorem filesOf_set (files : Dict Str Str) (p text : Str) :
    filesOf (set p text files) = set p (contentOf text) (filesOf files) := by
  induction files with
  | nil => rfl
  | cons e files ih =>
    obtain ⟨k, t⟩ := e
    unfold Dict.set
    simp only [filesOf, List.map_cons]
    split
    · rfl
    · simp only [List.map_cons]
      rw [← filesOf, ih]
      rfl

mutual
theorem text_serialisable : (v : Val) → TextVal v → v.serialisable = true
  | .none, _ => rfl
  | .bool _, _ => rfl
  | .num _, _ => rfl
  | .str _, _ => rfl
  | .src _ _, _ => rfl
  | .list l, h => by
    rw [Val.serialisable]
    exact texts_serialisable l (by cases h with | list _ h => exact h)
  | .dict d, h => by
    rw [Val.serialisable]
    exact pairs_serialisable d (by cases h with | dict _ h => exact h)
  | .other _ _ _, h => nomatch h
theorem texts_serialisable : (l : List Val) → (∀ v ∈ l, TextVal v) → Val.serialisableList l = true
  | [], _ => rfl
  | v :: l, h => by
    rw [Val.serialisableList, text_serialisable v (h v List.mem_cons_self),
      texts_serialisable l (fun y hy => h y (List.mem_cons_of_mem _ hy))]
    rfl
theorem pairs_serialisable : (d : List (Str × Val)) → (∀ e ∈ d, TextVal e.2) → Val.serialisableDict d = true
  | [], _ => rfl
  | (k, v) :: d, h => by
    rw [Val.serialisableDict, text_serialisable v (h (k, v) List.mem_cons_self),
      pairs_serialisable d (fun y hy => h y (List.mem_cons_of_mem _ hy))]
    rfl
end

theorem exGraphFile : GraphFile "/g.nxt".toList "/g".toList :=
  ⟨.inl (by decide), "g".toList, ⟨by decide, .inr ⟨[], by decide⟩⟩, 'g', by decide, by decide⟩

end Txt

/-- C158: with files of text the saving of Disk.lean is what it says: after the text of the data is written to the file,
the files are to the reader what `save_file_data` is said to leave (C118). -/
theorem C158_saved (files : Dict Str Str) (data : List (Str × Val)) (p stem : Str) (others : Nat → Str)
    (hd : TextVal (.dict data)) (hg : GraphFile p stem) :
    Disk.saveFileData (filesOf files) data (some p) false =
      (.ok p, filesOf (set p (dump others 0 (.dict data)) files)) := by
  have hc : contentOf (dump others 0 (.dict data)) = .json (Disk.writtenDict data) := by
    rw [contentOf, loadText_dump others 0 hd, Disk.written]
  unfold Disk.saveFileData
  simp only [Bool.false_eq_true, if_false]
  rw [if_neg (not_not_intro (Disk.splitext_graph hg).1), if_pos (text_serialisable _ hd), filesOf_set, hc]

/-- C158: the same when an object cannot be written: the text before it stands in the file, and the file is refused. -/
theorem C158_stopped (files : Dict Str Str) (data : List (Str × Val)) (p stem text : Str)
    (hd : HoldsObject (.dict data)) (hs : (Val.dict data).serialisable = false) (hg : GraphFile p stem)
    (ht : ∀ others, text <+: dump others 0 (.dict data)) :
    Disk.saveFileData (filesOf files) data (some p) false = (.error .type, filesOf (set p text files)) := by
  have hc : contentOf text = .cut := by rw [contentOf, C158_unfinished hd ht]
  unfold Disk.saveFileData
  simp only [Bool.false_eq_true, if_false]
  rw [if_neg (not_not_intro (Disk.splitext_graph hg).1), if_neg (by rw [hs]; decide), filesOf_set, hc]

example : Disk.saveFileData (filesOf []) [("a".toList, .other 0 true false)] (some "/g.nxt".toList) false =
    (.error .type, filesOf (set "/g.nxt".toList "{\n    \"a\": ".toList [])) :=
  C158_stopped [] _ _ _ _ (.dict _ _ List.mem_cons_self (.other _ _ _)) rfl exGraphFile
    (fun o => ⟨o 0 ++ "\n}".toList, by simp [dump, dumpPairs, quote, newline, escape]⟩)

/-- C158: from data to text and back to data.  A graph file whose text is the one written for the data is loaded with
every entry of the data. -/
theorem C158_file_read_back (expand : Str → Str) (expanders : List (Str → Str))
    (convert : Dict Str Val → Option (Dict Str Val)) (files : Dict Str Str) (others : Nat → Str) (p stem b path : Str)
    (hg : GraphFile p stem) (hb : IsBase stem b) (data : Dict Str Val) (hj : JsonVal (.dict data))
    (hl : Lossless (.dict data)) (hv : get? "version".toList data = some (.str "1.17".toList))
    (hr : Disk.realPath expand expanders (filesOf (set p (dump others 0 (.dict data)) files)) path = p) :
    ∃ d, Disk.loadFileData expand expanders convert (filesOf (set p (dump others 0 (.dict data)) files)) path = .ok d ∧
      (∀ k, k ∉ locationKeys → get? k d = get? k data) := by
  obtain ⟨files', hs, h⟩ := C118_round_trip expand expanders convert (filesOf files) p stem b hg hb data hl hv
  have h1 := C158_saved files data p stem others (textVal_json _ hj) hg
  rw [hs] at h1
  obtain rfl := (Prod.mk.inj h1).2
  obtain ⟨d, hd, hk, _⟩ := h path hr
  exact ⟨d, hd, hk⟩

/-- A file with a text of other alphabets in it. -/
example : ∃ d, Disk.loadFileData id [] some (filesOf (set "/g.nxt".toList (dump (fun _ => []) 0
      (.dict [("version".toList, .str "1.17".toList), ("alias".toList, .str "é\"".toList)])) [])) "/g.nxt".toList = .ok d ∧
    get? "alias".toList d = some (.str "é\"".toList) := by
  obtain ⟨d, hd, h⟩ := C158_file_read_back id [] some [] (fun _ => []) "/g.nxt".toList "/g".toList "g".toList "/g.nxt".toList
    exGraphFile ⟨by decide, .inr ⟨[], by decide⟩⟩
    [("version".toList, .str "1.17".toList), ("alias".toList, .str "é\"".toList)]
    (by
      refine .dict _ ?_
      simp only [List.forall_mem_cons, List.not_mem_nil, false_implies, implies_true, and_true]
      exact ⟨.str _, .str _⟩)
    (by
      refine .dict (by decide) ?_
      intro k v hm
      simp only [List.mem_cons, List.not_mem_nil, or_false, Prod.mk.injEq] at hm
      rcases hm with ⟨-, rfl⟩ | ⟨-, rfl⟩
      · exact .str _
      · exact .str _)
    rfl rfl
  exact ⟨d, hd, by rw [h _ (by decide)]; rfl⟩

/-- C158: a layer which is saved stands in its file as the text of its data, and every other file is as it was: the files
which `SpecLayer.save` is said to leave (C118) are those of the text. -/
theorem C158_layer_saved (builtins : List Str) (files : Dict Str Str) (L L' : Disk.FileLayer) (arg : Option Str)
    (data : List (Str × Val)) (files' : Disk.Files) (others : Nat → Str) (hd : TextVal (.dict data))
    (h : Disk.saveLayer builtins (filesOf files) L arg = (.ok (some data), L', files')) :
    ∃ p, L'.realPath = some p ∧ ((arg = some p ∧ p ≠ []) ∨ ((arg = none ∨ arg = some []) ∧ L.realPath = some p)) ∧
      files' = filesOf (set p (dump others 0 (.dict data)) files) := by
  unfold Disk.saveLayer at h
  split at h
  · simp only [Prod.mk.injEq, reduceCtorEq, false_and] at h
  · rename_i p hp
    have hw := (C118_where L arg p).mp hp
    simp only at h
    split at h
    · simp only [Prod.mk.injEq, reduceCtorEq, false_and] at h
    · rename_i data' _
      split at h
      · simp only [Prod.mk.injEq, Except.ok.injEq, reduceCtorEq, false_and] at h
      · split at h
        · simp only [Prod.mk.injEq, reduceCtorEq, false_and] at h
        · rename_i x files1 hs
          have key : ∀ {y : Str}, Disk.saveFileData (filesOf files) data' (some p) false = (.ok y, files1) → data' = data →
              files1 = filesOf (set p (dump others 0 (.dict data)) files) := by
            rintro y hs rfl
            have hc : contentOf (dump others 0 (.dict data')) = .json (Disk.writtenDict data') := by
              rw [contentOf, loadText_dump others 0 hd, Disk.written]
            unfold Disk.saveFileData at hs
            simp only [Bool.false_eq_true, if_false] at hs
            split at hs
            · simp only [Prod.mk.injEq, reduceCtorEq, false_and] at hs
            · rw [if_pos (text_serialisable _ hd)] at hs
              rw [filesOf_set, hc]
              exact (Prod.mk.inj hs).2.symm
          split at h
          · simp only [Prod.mk.injEq, Except.ok.injEq, Option.some.injEq] at h
            obtain ⟨h1, rfl, rfl⟩ := h
            exact ⟨p, rfl, hw, key hs h1⟩
          · rename_i hne
            simp only [Prod.mk.injEq, Except.ok.injEq, Option.some.injEq] at h
            obtain ⟨h1, rfl, rfl⟩ := h
            exact ⟨p, (Classical.not_not.mp hne).symm, hw, key hs h1⟩

namespace Txt

theorem json_of_lossless {v : Val} (h : Lossless v) : count v = 0 → JsonVal v := by
  induction h with
  | none => exact fun _ => .none
  | bool b => exact fun _ => .bool b
  | num n => exact fun _ => .num n
  | str s => exact fun _ => .str s
  | obj => exact fun h => nomatch h
  | list _ ih =>
    intro h
    rw [count] at h
    exact .list _ (fun v hv => ih v hv (Nat.le_zero.mp (h ▸ countItems_mem hv)))
  | dict _ _ ih =>
    intro h
    rw [count] at h
    exact .dict _ (fun e he => ih e.1 e.2 he (Nat.le_zero.mp (h ▸ countPairs_mem he)))

end Txt

namespace Txt

/-- What the layer of C118 saves is made of texts, truth values, lists and dicts. -/
theorem exOpened_json {data : List (Str × Val)} (hd : LayerData.getSaveData [] "1.17".toList exOpened.st = some data) :
    JsonVal (.dict data) := by
  have hc : ((LayerData.getSaveData [] "1.17".toList exOpened.st).map (fun d => count (.dict d))) = some 0 := by
    unfold LayerData.getSaveData LayerData.rawSaveData LayerData.nodesSaveData Layer.orderNodesDict sortByKey
    rw [List.mergeSort_of_pairwise (l := exOpened.st.overs) (by decide +kernel), List.mergeSort_of_pairwise (by decide +kernel)]
    decide +kernel
  rw [hd] at hc
  exact json_of_lossless (exOpened_storable.saved hd) (Option.some.inj hc)

end Txt

/-- The layer of C118, saved under another name. -/
example : ∃ data L' files', Disk.saveLayer [] (filesOf []) exOpened (some "/new.nxt".toList) = (.ok (some data), L', files') ∧
    JsonVal (.dict data) ∧ files' = filesOf [("/new.nxt".toList, dump (fun _ => []) 0 (.dict data))] := by
  have hb : IsBase "/new".toList "new".toList := ⟨by decide, .inr ⟨[], by decide⟩⟩
  have hg : GraphFile "/new.nxt".toList "/new".toList := ⟨.inl (by decide), _, hb, 'n', by decide, by decide⟩
  obtain ⟨data, hd⟩ : ∃ data, LayerData.getSaveData [] "1.17".toList exOpened.st = some data := ⟨_, rfl⟩
  have hj := exOpened_json hd
  have hs := saveLayer_ok [] (filesOf []) exOpened (some "/new.nxt".toList)
    "/new.nxt".toList "/new".toList "new".toList rfl hg hb data exOpened.st (by rfl) hd (exOpened_storable.saved hd)
  obtain ⟨p, _, hp, hf⟩ := C158_layer_saved [] [] _ _ _ data _ (fun _ => []) (textVal_json _ hj) hs
  obtain ⟨hp, -⟩ | ⟨hp | hp, -⟩ := hp
  · obtain rfl := Option.some.inj hp
    exact ⟨data, _, _, hs, hj, hf⟩
  · cases hp
  · cases hp

namespace Txt

theorem json_of_no_object {v : Val} (h : Lossless v) : ¬HoldsObject v → JsonVal v := by
  induction h with
  | none => exact fun _ => .none
  | bool b => exact fun _ => .bool b
  | num n => exact fun _ => .num n
  | str s => exact fun _ => .str s
  | obj id t => exact fun h => absurd (.other id t true) h
  | list _ ih => exact fun h => .list _ (fun v hv => ih v hv (fun h' => h (.list _ v hv h')))
  | dict _ _ ih => exact fun h => .dict _ (fun e he => ih e.1 e.2 he (fun h' => h (.dict _ e he h')))

theorem no_object_of_json {v : Val} (h : JsonVal v) : ¬HoldsObject v := by
  induction h with
  | list l _ ih => intro h'; cases h' with | list _ v hv h'' => exact ih v hv h''
  | dict d _ ih => intro h'; cases h' with | dict _ e he h'' => exact ih e he h''
  | _ => intro h'; cases h'

end Txt

/-- C118: a layer saved as text and opened from the text.  The file then holds a text of printable ASCII; from that text
alone the layer is opened with its alias, colour, references, overrides, meta data and nodes.  Partial: mute,
solo and lock are not kept, and what is saved holds no objects but texts, whole numbers, truth values, lists and dicts. -/
theorem C118_text_round_trip_partial (expand : Str → Str) (expanders : List (Str → Str))
    (convert : Dict Str Val → Option (Dict Str Val)) (builtins : List Str) (files : Dict Str Str) (L : Disk.FileLayer)
    (arg : Option Str) (p stem b : Str) (ht : Disk.target L arg = some p) (hg : GraphFile p stem)
    (hb : IsBase stem b) (order : Str → List Str) (gn : GoodNodes L.st.nodes order)
    (hmd : ∀ k ∈ layerTables, (L.st.md.table k).isSome)
    (s1 : LayerData.LayerState)
    (hs1 : s1 = { L.st with alias := if L.st.alias = "untitled".toList then b else L.st.alias })
    (hst : Storable L.st)
    (hno : ∀ data, LayerData.getSaveData builtins "1.17".toList s1 = some data → ¬HoldsObject (.dict data))
    (hr : ∀ files', (∀ q, q ≠ p → get? q files' = get? q (filesOf files)) → Disk.realPath expand expanders files' p = p) :
    ∃ data L' text L2, Disk.saveLayer builtins (filesOf files) L arg
        = (.ok (some data), L', filesOf (set p text files)) ∧
      (∀ c ∈ text, Printable c) ∧ loadText text = some (.dict data) ∧
      Disk.openLayer expand expanders convert (filesOf (set p text files)) p = .ok L2 ∧
      L2.realPath = some p ∧ L2.st.alias = s1.alias ∧
      L2.st.color = (if L.st.color.isEmptyContainer then .none else L.st.color) ∧
      L2.st.refs = L.st.refs.filter (fun r => !r.isEmpty) ∧ L2.st.overs = sortByKey L.st.overs ∧
      (∀ k ∈ layerTables, L2.st.md.table k = (L.st.md.table k).map sortByKey) ∧
      (∀ k, k ∉ layerTables → get? k L2.st.md.input = get? k L.st.md.input) ∧
      LayerData.constructNodes (some p) (LayerData.nodesSaveData builtins L.st.nodes) = some L2.st.nodes := by
  obtain ⟨data, L', files', L2, h1, -, h3, -, h5, h6, h7, -, h9, h10, h11, h12, h13, h14⟩ :=
    C118_layer_round_trip_partial expand expanders convert builtins (filesOf files) L arg p stem b ht hg hb order gn hmd
      s1 hs1 hst hr
  have hst1 : Storable s1 := by
    rw [hs1]; exact ⟨hst.color, hst.overs, hst.input, hst.own, hst.nodes⟩
  have hdata : LayerData.getSaveData builtins "1.17".toList s1 = some data := by
    obtain ⟨data', -, h1', -⟩ :=
      C57_round_trip_partial builtins "1.17".toList (FilePaths.basename p) (some p) s1 order
        (by rw [hs1]; exact gn) (by rw [hs1]; exact hmd)
    have hs := saveLayer_ok builtins (filesOf files) L arg p stem b ht hg hb data' s1 hs1 h1' (hst1.saved h1')
    rw [hs] at h1
    simp only [Prod.mk.injEq, Except.ok.injEq, Option.some.injEq] at h1
    rw [← h1.1]
    exact h1'
  have hj := json_of_no_object (hst1.saved hdata) (hno data hdata)
  obtain ⟨q, hq, -, hf⟩ := C158_layer_saved builtins files L L' arg data files' (fun _ => []) (textVal_json _ hj) h1
  obtain rfl : p = q := Option.some.inj (h6.symm.trans hq)
  subst hf
  refine ⟨data, L', dump (fun _ => []) 0 (.dict data), L2, h1, ?_, ?_, h3, h5, h7, h9, h10, h11, h12, h13, h14⟩
  · exact C158_ascii _ _ (textVal_json _ hj)
  · rw [loadText_dump _ 0 (textVal_json _ hj), written_json _ hj]

/-- The layer of C118 again. -/
example : ∃ data L' text L2, Disk.saveLayer [] (filesOf []) exOpened (some "/new.nxt".toList)
      = (.ok (some data), L', filesOf [("/new.nxt".toList, text)]) ∧ (∀ c ∈ text, Printable c) ∧
    Disk.openLayer id [] some (filesOf [("/new.nxt".toList, text)]) "/new.nxt".toList = .ok L2 ∧
    L2.st.alias = "old.nxt".toList := by
  obtain ⟨data, L', text, L2, h1, h2, -, h3, -, h4, -⟩ :=
    C118_text_round_trip_partial id [] some [] [] exOpened
      (some "/new.nxt".toList) "/new.nxt".toList "/new".toList "new".toList rfl
      ⟨.inl (by decide), "new".toList, ⟨by decide, .inr ⟨[], by decide⟩⟩, 'n', by decide, by decide⟩
      ⟨by decide, .inr ⟨[], by decide⟩⟩ _ exOpened_good
      (by intro k _; rfl) exOpened.st rfl exOpened_storable (fun _ hd => no_object_of_json (exOpened_json hd)) (fun _ _ => rfl)
  exact ⟨data, L', text, L2, h1, h2, h3, by rw [h4]; decide +kernel⟩

end Nxt.Props
