import Verif.Lemmas.Disk
import Verif.Props.LayerData
/-!
# Property C118: graph files on disk
-/
namespace Nxt.Props
open Dict Layer NodeData LayerData Spec Disk

/-! ## Data -/

/-- C118: a path which is missing or is not that of a graph file is refused with `TypeError`, the disk
stays as it is.  (So no temp file is ever made, against the documentation.) -/
theorem C118_refused (files : Files) (data : Dict Str Val) (path : Option Str) (binary : Bool)
    (h : ∀ p, path = some p → ¬∃ stem, GraphFile p stem) :
    saveFileData files data path binary = (.error .type, files) := by
  cases path with
  | none => rfl
  | some p =>
    have : (splitext p).2 ∉ EXTS := fun hm => h p rfl ((splitext_iff p).1 hm)
    unfold saveFileData
    simp only [if_pos this]

/-- C118: writing leaves all other files alone, whatever comes of it. -/
theorem C118_others (files : Files) (data : Dict Str Val) (path : Option Str) (binary : Bool) (q : Str)
    (h : path ≠ some q) : get? q (saveFileData files data path binary).2 = get? q files := by
  cases path with
  | none => rfl
  | some p =>
    have hne : p ≠ q := fun he => h (by rw [he])
    unfold saveFileData
    dsimp only
    split
    · rfl
    · split
      · rw [get?_set, if_neg (Ne.symm hne)]
      · split
        · rw [get?_set, if_neg (Ne.symm hne)]
        · rw [get?_set, if_neg (Ne.symm hne)]

theorem get?_located (path real : Str) (d : Dict Str Val) (k : Str) :
    get? k (located path real d) =
      if k = "name".toList then
        some ((get? "name".toList d).getD (.str (splitext (FilePaths.basename path)).1))
      else if k = "real_path".toList then some (.str real)
      else if k = "filepath".toList then some (.str path) else get? k d := by
  have e : get? "name".toList (set "real_path".toList (.str real) (set "filepath".toList (.str path) d))
      = get? "name".toList d := by
    rw [get?_set, get?_set, if_neg (by decide), if_neg (by decide)]
  unfold located
  dsimp only
  rw [e, get?_set, get?_set, get?_set]

/-- What reading a file with current data gives. -/
theorem load_json {expand : Str → Str} {expanders : List (Str → Str)}
    {convert : Dict Str Val → Option (Dict Str Val)} {files : Files} {path real stem : Str}
    {data : Dict Str Val} (hr : realPath expand expanders files path = real) (hg : GraphFile real stem)
    (hf : get? real files = some (.json data)) (hl : Lossless (.dict data))
    (hv : get? "version".toList data = some (.str "1.17".toList)) :
    loadFileData expand expanders convert files path = .ok (located path real data) := by
  cases hl with
  | dict ho hl =>
    unfold loadFileData
    dsimp only
    rw [hr, if_neg (not_not_intro (splitext_graph hg).1), hf]
    dsimp only
    rw [decodeDict_eq _ (fun k v h => (hl k v h).decode), byteify_eq ho]
    have : upgrade convert data = .ok data := by
      unfold upgrade
      rw [hv]
      dsimp only
      rw [show Version.gate (some "1.17".toList) = .asIs by decide +kernel]
    rw [this]

/-- C118: what is written is read again.  Data which JSON can hold, saved as a graph file of the current
version, come back entry for entry; `filepath` and `real_path` tell where the file was, and `name` is
the base name of the file unless the data have a name. -/
theorem C118_round_trip (expand : Str → Str) (expanders : List (Str → Str))
    (convert : Dict Str Val → Option (Dict Str Val)) (files : Files) (p stem b : Str)
    (hg : GraphFile p stem) (hb : IsBase stem b) (data : Dict Str Val) (hl : Lossless (.dict data))
    (hv : get? "version".toList data = some (.str "1.17".toList)) :
    ∃ files', saveFileData files data (some p) false = (.ok p, files') ∧
      ∀ path, realPath expand expanders files' path = p →
        ∃ d, loadFileData expand expanders convert files' path = .ok d ∧
          (∀ k, k ∉ locationKeys → get? k d = get? k data) ∧
          get? "filepath".toList d = some (.str path) ∧ get? "real_path".toList d = some (.str p) ∧
          (path = p → get? "name".toList d = some ((get? "name".toList data).getD (.str b))) := by
  have hw : writtenDict data = data := by
    have h := hl.written
    rw [Disk.written] at h
    exact Val.dict.inj h
  have hsave : saveFileData files data (some p) false = (.ok p, set p (.json data) files) := by
    unfold saveFileData
    dsimp only
    rw [if_neg (not_not_intro (splitext_graph hg).1), if_neg (by simp), if_pos hl.writable, hw]
  refine ⟨_, hsave, ?_⟩
  intro path hpath
  refine ⟨_, load_json hpath hg (by rw [get?_set, if_pos rfl]) hl hv, ?_, ?_, ?_, ?_⟩
  · intro k hk
    have hne : ∀ s ∈ locationKeys, k ≠ s := by rintro s hs rfl; exact hk hs
    rw [get?_located, if_neg (hne _ (by decide)), if_neg (hne _ (by decide)), if_neg (hne _ (by decide))]
  · rw [get?_located, if_neg (by decide), if_neg (by decide), if_pos rfl]
  · rw [get?_located, if_neg (by decide), if_pos rfl]
  · rintro rfl
    rw [get?_located, if_pos rfl, splitext_base hg hb]

/-- Such data and such a path. -/
example : GraphFile "/g/a.b.nxt".toList "/g/a.b".toList ∧ IsBase "/g/a.b".toList "a.b".toList ∧
    Lossless (.dict [("version".toList, .str "1.17".toList), ("color".toList, .list [.num 1, .none])]) ∧
    ¬(∃ stem, GraphFile "/g/.nxt".toList stem) ∧ ¬∃ stem, GraphFile "/g/a.json".toList stem := by
  have hb : IsBase "/g/a.b".toList "a.b".toList := ⟨by decide, .inr ⟨"/g".toList, by decide⟩⟩
  refine ⟨⟨.inl (by decide), _, hb, 'a', by decide, by decide⟩, hb, ?_, ?_, ?_⟩
  · refine .dict (by decide) ?_
    intro k v h
    simp only [List.mem_cons, List.not_mem_nil, or_false, Prod.mk.injEq] at h
    rcases h with ⟨-, rfl⟩ | ⟨-, rfl⟩
    · exact .str _
    · refine .list ?_
      intro v h
      simp only [List.mem_cons, List.not_mem_nil, or_false] at h
      rcases h with rfl | rfl
      · exact .num _
      · exact .none
  · rw [← splitext_iff]; decide +kernel
  · rw [← splitext_iff]; decide +kernel

/-- C118: which file is read.  The first expander which names a file on disk decides; if none does, it
is the expanded path. -/
theorem C118_which_file (expand : Str → Str) (expanders : List (Str → Str)) (files : Files) (path : Str) :
    (∃ before e after, expanders = before ++ e :: after ∧ e path ∈ keys files ∧
        (∀ e' ∈ before, e' path ∉ keys files) ∧ realPath expand expanders files path = e path) ∨
      ((∀ e ∈ expanders, e path ∉ keys files) ∧ realPath expand expanders files path = expand path) := by
  induction expanders with
  | nil => exact .inr ⟨by simp, rfl⟩
  | cons e es ih =>
    by_cases he : e path ∈ keys files
    · refine .inl ⟨[], e, es, rfl, he, by simp, ?_⟩
      unfold realPath
      rw [List.map_cons, List.find?_cons, get?_isSome.2 he]
      rfl
    · have hr : realPath expand (e :: es) files path = realPath expand es files path := by
        unfold realPath
        rw [List.map_cons, List.find?_cons, get?_eq_none.2 he]
        rfl
      rw [hr]
      rcases ih with ⟨bf, e', af, h1, h2, h3, h4⟩ | ⟨h1, h2⟩
      · refine .inl ⟨e :: bf, e', af, by rw [h1]; rfl, h2, ?_, h4⟩
        intro x hx
        rcases List.mem_cons.1 hx with rfl | hx
        · exact he
        · exact h3 x hx
      · refine .inr ⟨?_, h2⟩
        intro x hx
        rcases List.mem_cons.1 hx with rfl | hx
        · exact he
        · exact h1 x hx

/-- C118: a path which is not that of a graph file, or where there is no file, raises `IOError`. -/
theorem C118_not_loaded (expand : Str → Str) (expanders : List (Str → Str))
    (convert : Dict Str Val → Option (Dict Str Val)) (files : Files) (path : Str)
    (h : (¬∃ stem, GraphFile (realPath expand expanders files path) stem) ∨
      realPath expand expanders files path ∉ keys files) :
    loadFileData expand expanders convert files path = .error .io := by
  unfold loadFileData
  dsimp only
  by_cases hs : (splitext (realPath expand expanders files path)).2 ∉ EXTS
  · rw [if_pos hs]
  · rw [if_neg hs]
    rcases h with h | h
    · exact absurd ((splitext_iff _).1 (by simpa using hs)) h
    · rw [get?_eq_none.2 h]

/-- C118, violated: a file written in the binary format is never read again, whatever its path and
data. -/
theorem C118_binary_violation (expand : Str → Str) (expanders : List (Str → Str))
    (convert : Dict Str Val → Option (Dict Str Val)) (files : Files) (p stem : Str)
    (hg : GraphFile p stem) (data : Dict Str Val) :
    ∃ files', saveFileData files data (some p) true = (.ok p, files') ∧
      ∀ path, realPath expand expanders files' path = p →
        loadFileData expand expanders convert files' path = .error .decode := by
  refine ⟨set p (.pickle data) files, ?_, ?_⟩
  · unfold saveFileData
    dsimp only
    rw [if_neg (not_not_intro (splitext_graph hg).1), if_pos rfl]
  · intro path hp
    unfold loadFileData
    dsimp only
    rw [hp, if_neg (not_not_intro (splitext_graph hg).1), get?_set, if_pos rfl]

/-- C118, violated: data which JSON cannot hold destroy the file they were to replace.  The exception
comes when the file is already open for writing. -/
theorem C118_lost_violation (expand : Str → Str) (expanders : List (Str → Str))
    (convert : Dict Str Val → Option (Dict Str Val)) (files : Files) (p stem : Str)
    (hg : GraphFile p stem) (data : Dict Str Val) (hu : Unwritable (.dict data)) :
    ∃ files', saveFileData files data (some p) false = (.error .type, files') ∧
      ∀ path, realPath expand expanders files' path = p →
        loadFileData expand expanders convert files' path = .error .decode := by
  refine ⟨set p .cut files, ?_, ?_⟩
  · unfold saveFileData
    dsimp only
    rw [if_neg (not_not_intro (splitext_graph hg).1), if_neg (by simp),
      if_neg (by rw [(serialisable_iff _).2 hu]; simp)]
  · intro path hp
    unfold loadFileData
    dsimp only
    rw [hp, if_neg (not_not_intro (splitext_graph hg).1), get?_set, if_pos rfl]

/-- C118, violated: a tuple comes back as a list. -/
theorem C118_tuple_violation (files : Files) (layer path : Str) :
    ∃ files' d, saveFileData files [("x".toList, .src (some layer) path)] (some "/g.nxt".toList) false
        = (.ok "/g.nxt".toList, files') ∧
      loadFileData id [] some files' "/g.nxt".toList = .ok d ∧
      get? "x".toList d = some (.list [.str layer, .str path]) := by
  have hx : (splitext "/g.nxt".toList).2 ∈ EXTS := by decide +kernel
  refine ⟨set "/g.nxt".toList (.json [("x".toList, .list [.str layer, .str path])]) files,
    located "/g.nxt".toList "/g.nxt".toList [("x".toList, .list [.str layer, .str path])], ?_, ?_, ?_⟩
  · unfold saveFileData
    dsimp only
    rw [if_neg (not_not_intro hx), if_neg (by simp), if_pos (by rfl)]
    rfl
  · unfold loadFileData
    dsimp only
    rw [show realPath id [] (set "/g.nxt".toList (.json [("x".toList, .list [.str layer, .str path])]) files)
        "/g.nxt".toList = "/g.nxt".toList from rfl, if_neg (not_not_intro hx), get?_set, if_pos rfl]
    dsimp only
    rw [show upgrade some (byteify (decodeDict [("x".toList, .list [.str layer, .str path])]))
        = .ok [("x".toList, .list [.str layer, .str path])] by
      have hok : Ok [("x".toList, Val.list [.str layer, .str path])] := by unfold Ok keys; simp
      rw [show decodeDict [("x".toList, .list [.str layer, .str path])]
        = [("x".toList, .list [.str layer, .str path])] from rfl, byteify_eq hok]
      unfold upgrade
      rw [show get? "version".toList [("x".toList, Val.list [.str layer, .str path])] = none from rfl]
      dsimp only
      rw [show Version.gate none = .asIs by decide +kernel]]
  · rw [get?_located, if_neg (by decide), if_neg (by decide), if_neg (by decide)]
    rfl

/-! ## Layers -/

/-- C118: a layer is saved to the path given, or to its own when none (or an empty one) is given. -/
theorem C118_where (L : FileLayer) (arg : Option Str) (p : Str) :
    target L arg = some p ↔
      (arg = some p ∧ p ≠ []) ∨ ((arg = none ∨ arg = some []) ∧ L.realPath = some p) := by
  rcases arg with _ | (_ | ⟨c, q⟩)
  · simp [target]
  · simp only [target, Option.some.injEq]
    constructor
    · exact fun h => .inr ⟨.inr trivial, h⟩
    · rintro (⟨h, h'⟩ | ⟨-, h⟩)
      · exact absurd h.symm h'
      · exact h
  · simp only [target, Option.some.injEq]
    constructor
    · rintro rfl; exact .inl ⟨rfl, by simp⟩
    · rintro (⟨h, -⟩ | ⟨h | h, -⟩)
      · exact h
      · cases h
      · cases h

/-- The alias a layer is saved with. -/
theorem named_eq (p stem b : Str) (hg : GraphFile p stem) (hb : IsBase stem b) (s : LayerState) :
    named p s = { s with alias := if s.alias = "untitled".toList then b else s.alias } := by
  unfold named
  rw [splitext_base hg hb, show UNTITLED = "untitled".toList from rfl]
  split <;> rfl

/-- The outcome of saving a layer whose data can be written. -/
theorem saveLayer_ok (builtins : List Str) (files : Files) (L : FileLayer) (arg : Option Str)
    (p stem b : Str) (ht : target L arg = some p) (hg : GraphFile p stem) (hb : IsBase stem b)
    (data : Dict Str Val) (s1 : LayerState)
    (hs1 : s1 = { L.st with alias := if L.st.alias = "untitled".toList then b else L.st.alias })
    (hd : getSaveData builtins "1.17".toList s1 = some data) (hl : Lossless (.dict data)) :
    saveLayer builtins files L arg =
      (.ok (some data),
        (if some p ≠ L.realPath then
          { L with realPath := some p, st := { s1 with nodes := propagate p s1.nodes } }
         else { L with st := s1 }), set p (.json data) files) := by
  have hw : writtenDict data = data := by
    have h := hl.written
    rw [Disk.written] at h
    exact Val.dict.inj h
  unfold saveLayer
  rw [ht]
  dsimp only
  rw [named_eq p stem b hg hb, ← hs1, show Version.VERSION_STR = "1.17".toList from rfl, hd]
  dsimp only
  rw [if_neg (by rw [hl.writable]; simp)]
  unfold saveFileData
  dsimp only
  rw [if_neg (not_not_intro (splitext_graph hg).1), if_neg (by simp), if_pos hl.writable, hw]
  dsimp only
  split <;> rfl

/-- C118: a layer saved to a file and opened again.  The layer knows the file; alias, colour,
references, overrides, meta data and nodes are as in C57, now with the file as their source; an untitled
layer has taken the name of the file.  Partial: mute, solo and lock are not kept. -/
theorem C118_layer_round_trip_partial (expand : Str → Str) (expanders : List (Str → Str))
    (convert : Dict Str Val → Option (Dict Str Val)) (builtins : List Str) (files : Files) (L : FileLayer)
    (arg : Option Str) (p stem b : Str) (ht : target L arg = some p) (hg : GraphFile p stem)
    (hb : IsBase stem b) (order : Str → List Str) (gn : GoodNodes L.st.nodes order)
    (hmd : ∀ k ∈ layerTables, (L.st.md.table k).isSome)
    (s1 : LayerState)
    (hs1 : s1 = { L.st with alias := if L.st.alias = "untitled".toList then b else L.st.alias })
    (hst : Storable L.st)
    (hr : ∀ files', (∀ q, q ≠ p → get? q files' = get? q files) → realPath expand expanders files' p = p) :
    ∃ data L' files' L2, saveLayer builtins files L arg = (.ok (some data), L', files') ∧
      (∀ q, q ≠ p → get? q files' = get? q files) ∧
      openLayer expand expanders convert files' p = .ok L2 ∧
      L2.filepath = some p ∧ L2.realPath = some p ∧ L'.realPath = some p ∧
      L2.st.alias = s1.alias ∧ L'.st.alias = s1.alias ∧
      L2.st.color = (if L.st.color.isEmptyContainer then .none else L.st.color) ∧
      L2.st.refs = L.st.refs.filter (fun r => !r.isEmpty) ∧ L2.st.overs = sortByKey L.st.overs ∧
      (∀ k ∈ layerTables, L2.st.md.table k = (L.st.md.table k).map sortByKey) ∧
      (∀ k, k ∉ layerTables → get? k L2.st.md.input = get? k L.st.md.input) ∧
      constructNodes (some p) (nodesSaveData builtins L.st.nodes) = some L2.st.nodes := by
  obtain ⟨data, s', h1, h2, h3, h4, h5, h6, h7, h8, h9, -⟩ :=
    C57_round_trip_partial builtins "1.17".toList (FilePaths.basename p) (some p) s1 order
      (by rw [hs1]; exact gn) (by rw [hs1]; exact hmd)
  have hst1 : Storable s1 := by
    rw [hs1]; exact ⟨hst.color, hst.overs, hst.input, hst.own, hst.nodes⟩
  have hll := hst1.saved h1
  have hs := saveLayer_ok builtins files L arg p stem b ht hg hb data s1 hs1 h1 hll
  have hother : ∀ q, q ≠ p → get? q (set p (.json data) files) = get? q files := by
    intro q hq
    rw [get?_set, if_neg hq]
  have hver : get? "version".toList data = some (.str "1.17".toList) := by
    cases hmd' : getMetaData s1.md with
    | none => unfold getSaveData at h1; rw [hmd'] at h1; cases h1
    | some md => rw [get?_saved builtins _ s1 md data hmd' h1]; rfl
  have hload := load_json (convert := convert) (hr _ hother) hg
    (show get? p (set p (.json data) files) = some (.json data) by rw [get?_set, if_pos rfl]) hll hver
  have hcong : loadLayer (some p) (FilePaths.basename p) (located p p data)
      = loadLayer (some p) (FilePaths.basename p) data := by
    have e : ∀ k, k ∉ locationKeys → get? k (located p p data) = get? k data := by
      intro k hk
      have hne : ∀ s ∈ locationKeys, k ≠ s := by rintro s hs rfl; exact hk hs
      rw [get?_located, if_neg (hne _ (by decide)), if_neg (hne _ (by decide)), if_neg (hne _ (by decide))]
    unfold loadLayer aliasEntry dictEntry refsEntry
    rw [e "alias".toList (by decide), e "comp_overrides".toList (by decide), e "references".toList (by decide),
      e "meta_data".toList (by decide), e "nodes".toList (by decide), e "color".toList (by decide),
      e "lock".toList (by decide)]
  have t1 : textEntry "real_path".toList (located p p data) = some p := by
    unfold textEntry
    rw [get?_located, if_neg (by decide), if_pos rfl]
  have t2 : textEntry "filepath".toList (located p p data) = some p := by
    unfold textEntry
    rw [get?_located, if_neg (by decide), if_neg (by decide), if_pos rfl]
  refine ⟨data, _, _, ⟨s', some p, some p⟩, hs, hother, ?_, rfl, rfl, ?_, h3, ?_, ?_, ?_, ?_, ?_, ?_, ?_⟩
  · unfold openLayer
    rw [hload]
    dsimp only
    rw [t1, t2, hcong, h2]
  · split
    · rfl
    · rename_i hn
      simp only [ne_eq, Decidable.not_not] at hn
      exact hn.symm
  · split <;> rfl
  · rw [h4, hs1]
  · rw [h5, hs1]
  · rw [h6, hs1]
  · rw [hs1] at h7; exact h7
  · rw [hs1] at h8; exact h8
  · rw [hs1] at h9; exact h9

/-- C118: a layer with something JSON cannot hold is not saved, and no file is touched.  (It is not told
to the caller either but by the missing result; and an untitled layer has been named already.) -/
theorem C118_not_saved (builtins : List Str) (files : Files) (L : FileLayer) (arg : Option Str)
    (p stem b : Str) (ht : target L arg = some p) (hg : GraphFile p stem) (hb : IsBase stem b)
    (data : Dict Str Val) (s1 : LayerState)
    (hs1 : s1 = { L.st with alias := if L.st.alias = "untitled".toList then b else L.st.alias })
    (hd : getSaveData builtins "1.17".toList s1 = some data) (hu : Unwritable (.dict data)) :
    saveLayer builtins files L arg = (.ok none, { L with st := s1 }, files) := by
  unfold saveLayer
  rw [ht]
  dsimp only
  rw [named_eq p stem b hg hb, ← hs1, show Version.VERSION_STR = "1.17".toList from rfl, hd]
  dsimp only
  rw [if_pos (by rw [(serialisable_iff _).2 hu]; rfl)]

/-- Such a layer: its colour is an object JSON cannot hold. -/
example : ∃ data, getSaveData [] "1.17".toList { sampleLayer with color := .other 0 true false } = some data ∧
    Unwritable (.dict data) := by
  obtain ⟨md, hmd, -⟩ := metaFold_spec sampleLayer.md TABLE_KEYS sampleLayer.md.input sampleLayer_tables
    (by decide +kernel)
  obtain ⟨data, hd⟩ : ∃ data, getSaveData [] "1.17".toList
      { sampleLayer with color := .other 0 true false } = some data := by
    unfold getSaveData
    rw [show getMetaData sampleLayer.md = some md from hmd]
    exact ⟨_, rfl⟩
  refine ⟨data, hd, ?_⟩
  have h : get? "color".toList data = some (.other 0 true false) := by
    rw [get?_saved [] _ { sampleLayer with color := .other 0 true false } md data hmd hd]
    rfl
  exact .entry (mem_of_get? h) (.obj 0 true)

/-- C118: after saving to another file the layer has the new real path, and so does every node but the
world.  Nothing else of the nodes changes. -/
theorem C118_save_as (builtins : List Str) (files files' : Files) (L L' : FileLayer) (arg : Option Str)
    (p : Str) (ht : target L arg = some p) (hp : L.realPath ≠ some p) (data : Dict Str Val)
    (hs : saveLayer builtins files L arg = (.ok (some data), L', files')) :
    L'.realPath = some p ∧ keys L'.st.nodes = keys L.st.nodes ∧
      ∀ q n, get? q L.st.nodes = some n → ∃ n', get? q L'.st.nodes = some n' ∧
        (∀ a, a ≠ "_source_layer".toList → get? a n' = get? a n) ∧
        get? "_source_layer".toList n'
          = if q = "/".toList then get? "_source_layer".toList n else some (.str p) := by
  have key : L'.realPath = some p ∧ L'.st.nodes = propagate p L.st.nodes := by
    unfold saveLayer at hs
    rw [ht] at hs
    dsimp only at hs
    have hn : (named p L.st).nodes = L.st.nodes := by unfold named; split <;> rfl
    split at hs
    · cases hs
    · split at hs
      · cases hs
      · split at hs
        · cases hs
        · rw [if_pos (Ne.symm hp)] at hs
          cases hs
          exact ⟨rfl, by rw [hn]⟩
  obtain ⟨k1, k2⟩ := key
  refine ⟨k1, ?_, ?_⟩
  · rw [k2]
    unfold propagate keys
    rw [List.map_map]
    apply List.map_congr_left
    intro x _
    dsimp only [Function.comp]
    split <;> rfl
  · intro q n hq
    have hget : ∀ T : Dict Str (Dict Str Val), get? q (propagate p T)
        = (get? q T).map (fun n => if q = "/".toList then n else set A_SOURCE_LAYER (.str p) n) := by
      intro T
      induction T with
      | nil => rfl
      | cons e T ih =>
        obtain ⟨x, m⟩ := e
        unfold propagate at ih ⊢
        rw [List.map_cons]
        by_cases hw : x = Path.WORLD
        · rw [if_pos hw, get?, get?]
          by_cases hx : x = q
          · subst hx
            rw [if_pos rfl, if_pos rfl, Option.map_some, if_pos (show x = "/".toList from hw)]
          · rw [if_neg hx, if_neg hx]; exact ih
        · rw [if_neg hw, get?, get?]
          by_cases hx : x = q
          · subst hx
            rw [if_pos rfl, if_pos rfl, Option.map_some, if_neg (show ¬x = "/".toList from hw)]
          · rw [if_neg hx, if_neg hx]; exact ih
    rw [k2, hget, hq, Option.map_some]
    refine ⟨_, rfl, ?_, ?_⟩
    · intro a ha
      split
      · rfl
      · rw [get?_set, if_neg (show ¬a = A_SOURCE_LAYER from ha)]
    · split
      · rfl
      · rw [get?_set, if_pos (show "_source_layer".toList = A_SOURCE_LAYER from rfl)]

/-! ### A layer opened and saved under another name -/

/-- Simple values, for examples. -/
def simpleVal : Val → Bool
  | .none => true
  | .bool _ => true
  | .num _ => true
  | .str _ => true
  | .list [] => true
  | .list [.str _] => true
  | _ => false

theorem simpleVal_lossless {v : Val} (h : simpleVal v = true) : Lossless v := by
  unfold simpleVal at h
  split at h
  · exact .none
  · exact .bool _
  · exact .num _
  · exact .str _
  · exact .list (by simp)
  · refine .list ?_
    intro v hv
    rw [List.mem_singleton] at hv
    rw [hv]; exact .str _
  · cases h

theorem simple_storable {T : Dict Str (Dict Str Val)}
    (h : ∀ e ∈ T, ∀ x ∈ e.2, (Py.endsWith x.1 "_source__nxt".toList || simpleVal x.2) = true) :
    ∀ p n, (p, n) ∈ T → ∀ a v, (a, v) ∈ n → (∀ x, a ≠ x ++ "_source__nxt".toList) → Lossless v := by
  intro p n hp a v ha hs
  have := h (p, n) hp (a, v) ha
  rcases Bool.or_eq_true_iff.1 this with h1 | h1
  · obtain ⟨x, hx⟩ := List.isSuffixOf_iff_suffix.1 h1
    exact absurd hx.symm (hs x)
  · exact simpleVal_lossless h1

/-- The nodes of a file: the world node and a node `/a` with an attribute. -/
def exFileNodes : Dict Str Val :=
  [("/".toList, .dict []),
   ("/a".toList, .dict [("attrs".toList, .dict [("x".toList, .dict [("value".toList, .num 1)])])])]

/-- A file with these nodes. -/
def exFileData : Dict Str Val :=
  [("version".toList, .str "1.17".toList), ("nodes".toList, .dict exFileNodes)]

/-- The nodes as they are loaded. -/
def exLoaded : Dict Str (Dict Str Val) :=
  (loadNodes (some "/old.nxt".toList) exFileNodes []).getD []

/-- The layer as it is loaded. -/
def exOpened : FileLayer :=
  { st := { alias := "old.nxt".toList, color := .none, mute := false, solo := false, lock := .bool false,
            refs := [], overs := [], md := loadMeta [], nodes := exLoaded },
    filepath := some "/old.nxt".toList, realPath := some "/old.nxt".toList }

theorem exFile_lossless : Lossless (.dict exFileData) := by
  have h1 : Lossless (.dict [("value".toList, .num 1)]) := lossless_set lossless_nil (.num 1)
  have h2 : Lossless (.dict [("x".toList, .dict [("value".toList, .num 1)])]) := lossless_set lossless_nil h1
  have h3 : Lossless (.dict [("attrs".toList, .dict [("x".toList, .dict [("value".toList, .num 1)])])]) :=
    lossless_set lossless_nil h2
  have h4 : Lossless (.dict exFileNodes) :=
    lossless_set (k := "/a".toList) (lossless_set (k := "/".toList) lossless_nil lossless_nil) h3
  exact lossless_set (k := "nodes".toList) (lossless_set (k := "version".toList) lossless_nil (.str _)) h4

theorem exOpened_eq : openLayer id [] some [("/old.nxt".toList, .json exFileData)] "/old.nxt".toList
    = .ok exOpened := by
  have hg : GraphFile "/old.nxt".toList "/old".toList :=
    ⟨.inl (by decide), "old".toList, ⟨by decide, .inr ⟨[], by decide⟩⟩, 'o', by decide, by decide⟩
  have hload := load_json (expand := id) (expanders := []) (convert := some) (path := "/old.nxt".toList)
    (real := "/old.nxt".toList)
    (files := [("/old.nxt".toList, .json exFileData)]) rfl hg rfl exFile_lossless rfl
  have hcn : constructNodes (some "/old.nxt".toList) exFileNodes = some exLoaded := by
    unfold constructNodes orderNodesDict
    rw [List.mergeSort_of_pairwise (by decide +kernel)]
    rfl
  unfold openLayer
  rw [hload]
  dsimp only
  rw [show textEntry "real_path".toList (located "/old.nxt".toList "/old.nxt".toList exFileData)
      = some "/old.nxt".toList from rfl]
  have : loadLayer (some "/old.nxt".toList) (FilePaths.basename "/old.nxt".toList)
      (located "/old.nxt".toList "/old.nxt".toList exFileData) = some exOpened.st := by
    unfold loadLayer
    rw [show aliasEntry (FilePaths.basename "/old.nxt".toList)
        (located "/old.nxt".toList "/old.nxt".toList exFileData) = some "old.nxt".toList from rfl,
      show dictEntry "nodes".toList (located "/old.nxt".toList "/old.nxt".toList exFileData)
        = some exFileNodes from rfl]
    simp only [Option.bind_eq_bind, Option.bind_some, hcn]
    rfl
  rw [this]
  rfl

theorem exOpened_storable : Storable exOpened.st :=
  ⟨.none, lossless_nil, lossless_nil, fun _ => lossless_nil, simple_storable (by decide +kernel)⟩

theorem exOpened_good : GoodNodes exOpened.st.nodes (fun p => if p = "/".toList then [['a']] else []) where
  ok := by decide +kernel
  path := by
    intro p hp
    rw [show keys exOpened.st.nodes = ["/".toList, "/a".toList] by decide +kernel] at hp
    simp only [List.mem_cons, List.not_mem_nil, or_false] at hp
    rcases hp with rfl | rfl
    · exact ⟨[], by decide +kernel, by decide +kernel⟩
    · exact ⟨["a".toList], by decide +kernel, by decide +kernel⟩
  node := by
    intro p n h
    have hp := get?_isSome.1 (show (get? p exOpened.st.nodes).isSome by rw [h]; rfl)
    rw [show keys exOpened.st.nodes = ["/".toList, "/a".toList] by decide +kernel] at hp
    simp only [List.mem_cons, List.not_mem_nil, or_false] at hp
    rcases hp with rfl | rfl
    · have : n = (get? "/".toList exOpened.st.nodes).getD [] := by rw [h]; rfl
      subst this
      exact ⟨by decide +kernel, by rfl, by rfl⟩
    · have : n = (get? "/a".toList exOpened.st.nodes).getD [] := by rw [h]; rfl
      subst this
      exact ⟨by decide +kernel, by rfl, by rfl⟩
  listed := by
    intro p hp hw
    rw [show keys exOpened.st.nodes = ["/".toList, "/a".toList] by decide +kernel] at hp ⊢
    simp only [List.mem_cons, List.not_mem_nil, or_false] at hp
    rcases hp with rfl | rfl
    · exact absurd rfl hw
    · refine ⟨by decide, ?_⟩
      decide +kernel

/-- The layer just opened meets the hypotheses of the round trip. -/
example : ∃ data L' files' L2,
    saveLayer [] [("/old.nxt".toList, .json exFileData)] exOpened (some "/new.nxt".toList)
      = (.ok (some data), L', files') ∧
    openLayer id [] some files' "/new.nxt".toList = .ok L2 ∧ L2.st.alias = "old.nxt".toList := by
  obtain ⟨data, L', files', L2, h1, -, h3, -, -, -, h4, -⟩ :=
    C118_layer_round_trip_partial id [] some [] [("/old.nxt".toList, .json exFileData)] exOpened
      (some "/new.nxt".toList) "/new.nxt".toList "/new".toList "new".toList rfl
      ⟨.inl (by decide), "new".toList, ⟨by decide, .inr ⟨[], by decide⟩⟩, 'n', by decide, by decide⟩
      ⟨by decide, .inr ⟨[], by decide⟩⟩ _ exOpened_good
      (by intro k _; rfl) _ rfl exOpened_storable (fun _ _ => rfl)
  exact ⟨data, L', files', L2, h1, h3, by rw [h4]; decide +kernel⟩

/-- C118, violated: after saving under another name neither the world node nor the sources of the
attributes name the new file, and `filepath` is the old one. -/
theorem C118_stale_violation :
    ∃ L L' files' data w n,
      openLayer id [] some [("/old.nxt".toList, .json exFileData)] "/old.nxt".toList = .ok L ∧
      saveLayer [] [("/old.nxt".toList, .json exFileData)] L (some "/new.nxt".toList)
        = (.ok (some data), L', files') ∧
      L'.realPath = some "/new.nxt".toList ∧ L'.filepath = some "/old.nxt".toList ∧
      get? "/".toList L'.st.nodes = some w ∧ get? "/a".toList L'.st.nodes = some n ∧
      get? "_source_layer".toList n = some (.str "/new.nxt".toList) ∧
      get? "_source_layer".toList w = some (.str "/old.nxt".toList) ∧
      get? "x_source__nxt".toList n = some (.src (some "/old.nxt".toList) "/a".toList) := by
  have hb : IsBase "/new".toList "new".toList := ⟨by decide, .inr ⟨[], by decide⟩⟩
  have hg : GraphFile "/new.nxt".toList "/new".toList := ⟨.inl (by decide), _, hb, 'n', by decide, by decide⟩
  obtain ⟨data, hd⟩ : ∃ data, getSaveData [] "1.17".toList exOpened.st = some data := ⟨_, rfl⟩
  have hs := saveLayer_ok [] [("/old.nxt".toList, .json exFileData)] exOpened (some "/new.nxt".toList)
    "/new.nxt".toList "/new".toList "new".toList rfl hg hb data exOpened.st (by rfl) hd
    (exOpened_storable.saved hd)
  rw [if_pos (by decide)] at hs
  obtain ⟨k1, -, k2⟩ := C118_save_as [] _ _ exOpened _ _ "/new.nxt".toList rfl (by decide) data hs
  obtain ⟨w, hw⟩ : ∃ w, get? "/".toList exOpened.st.nodes = some w := ⟨_, rfl⟩
  obtain ⟨n, hn⟩ : ∃ n, get? "/a".toList exOpened.st.nodes = some n := ⟨_, rfl⟩
  obtain ⟨w', w1, -, w3⟩ := k2 _ w hw
  obtain ⟨n', n1, n2, n3⟩ := k2 _ n hn
  refine ⟨exOpened, _, _, data, w', n', exOpened_eq, hs, k1, rfl, w1, n1, ?_, ?_, ?_⟩
  · rw [n3, if_neg (by decide)]
  · rw [w3, if_pos rfl]
    cases hw; rfl
  · rw [n2 _ (by decide)]
    cases hn; rfl

end Nxt.Props
