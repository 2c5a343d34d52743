import Verif.Spec.Doubled
import Verif.Props.JsonGrammar
import Verif.Props.JsonText
/-!
# C160: keys written twice in a graph file
-/
namespace Nxt.Props
open Spec JsonText Dict

namespace Twice
open Disk

theorem fold_other (k : Str) (d r : Dict Str Val) (h : ∀ e ∈ d, e.1 ≠ k) :
    get? k (d.foldl (fun r kv => set kv.1 (byteifyItem kv.2) r) r) = get? k r := by
  induction d generalizing r with
  | nil => rfl
  | cons e d ih =>
    rw [List.foldl_cons, ih _ (fun x hx => h x (List.mem_cons_of_mem _ hx)), get?_set,
      if_neg (fun he => h e List.mem_cons_self he.symm)]

theorem byteify_last (k : Str) (v : Val) (before after : Dict Str Val) (h : ∀ e ∈ after, e.1 ≠ k) :
    get? k (byteify (before ++ (k, v) :: after)) = some v := by
  unfold byteify
  rw [List.foldl_append, List.foldl_cons, fold_other k after _ h, get?_set, if_pos rfl, byteifyItem_eq]

theorem byteify_absent (k : Str) (d : Dict Str Val) (h : ∀ e ∈ d, e.1 ≠ k) : get? k (byteify d) = none := by
  unfold byteify
  rw [fold_other k d _ h]
  rfl

theorem last_split (k : Str) (d : List (Str × Val)) :
    (∀ e ∈ d, e.1 ≠ k) ∨ ∃ before v after, d = before ++ (k, v) :: after ∧ ∀ e ∈ after, e.1 ≠ k := by
  induction d with
  | nil => exact .inl (by simp)
  | cons e d ih =>
    rcases ih with h | ⟨b, v, a, rfl, h⟩
    · by_cases hk : e.1 = k
      · exact .inr ⟨[], e.2, d, by rw [← hk]; rfl, h⟩
      · refine .inl (fun x hx => ?_)
        rcases List.mem_cons.1 hx with rfl | hx
        · exact hk
        · exact h x hx
    · exact .inr ⟨e :: b, v, a, rfl, h⟩

theorem ok_fold (d r : Dict Str Val) (h : Ok r) :
    Ok (d.foldl (fun r kv => set kv.1 (byteifyItem kv.2) r) r) := by
  induction d generalizing r with
  | nil => exact h
  | cons e d ih => exact ih _ (ok_set h _ _)

theorem ok_byteify (d : Dict Str Val) : Ok (byteify d) := ok_fold d [] ok_nil

theorem keys_fold (d r : Dict Str Val) :
    keys (d.foldl (fun r kv => set kv.1 (byteifyItem kv.2) r) r)
      = keys r ++ (firstTimes (keys d)).filter (fun k => k ∉ keys r) := by
  induction d generalizing r with
  | nil => simp [keys, firstTimes]
  | cons e d ih =>
    rw [List.foldl_cons, ih, keys_set, show keys (e :: d) = e.1 :: keys d from rfl, firstTimes]
    by_cases hk : e.1 ∈ keys r
    · rw [if_pos hk, List.filter_cons_of_neg (by simpa using hk), List.filter_filter]
      congr 1
      apply List.filter_congr
      intro x _
      by_cases hx : x = e.1
      · subst hx; simp [hk]
      · simp [hx]
    · rw [if_neg hk, List.filter_cons_of_pos (by simpa using hk), List.filter_filter, List.append_assoc,
        List.singleton_append]
      congr 2
      apply List.filter_congr
      intro x _
      simp only [List.mem_append, List.mem_singleton, not_or, ne_eq, Bool.decide_and]

theorem keys_byteify (d : Dict Str Val) : keys (byteify d) = firstTimes (keys d) := by
  unfold byteify
  rw [keys_fold]
  simp [keys]

theorem decodeList_append (a b : List Val) : decodeList (a ++ b) = decodeList a ++ decodeList b := by
  induction a with
  | nil => rfl
  | cons v a ih => rw [List.cons_append, decodeList, ih]; rfl

theorem decodeList_length (a : List Val) : (decodeList a).length = a.length := by
  induction a with
  | nil => rfl
  | cons v a ih => rw [decodeList, List.length_cons, ih]; rfl

theorem decodeList_split (l before after : List Val) (v : Val) (h : decodeList l = before ++ v :: after) :
    ∃ b w a, l = b ++ w :: a ∧ b.length = before.length ∧ v = decode w := by
  induction l generalizing before with
  | nil => cases before <;> cases h
  | cons x l ih =>
    rw [decodeList] at h
    cases before with
    | nil => exact ⟨[], x, l, rfl, rfl, (List.cons.inj h).1.symm⟩
    | cons y before =>
      obtain ⟨b, w, a, rfl, hl, hv⟩ := ih before (List.cons.inj h).2
      exact ⟨x :: b, w, a, rfl, by simp [hl], hv⟩

theorem decodeDict_append (a b : List (Str × Val)) : decodeDict (a ++ b) = decodeDict a ++ decodeDict b := by
  induction a with
  | nil => rfl
  | cons v a ih => obtain ⟨k, v⟩ := v; rw [List.cons_append, decodeDict, ih]; rfl

theorem keys_decodeDict (d : List (Str × Val)) : keys (decodeDict d) = keys d := by
  induction d with
  | nil => rfl
  | cons e d ih =>
    obtain ⟨k, v⟩ := e
    rw [decodeDict]
    simp only [keys, List.map_cons] at ih ⊢
    rw [ih]

theorem decodeDict_absent {k : Str} {d : List (Str × Val)} (h : ∀ e ∈ d, e.1 ≠ k) : ∀ e ∈ decodeDict d, e.1 ≠ k := by
  intro e he hk
  have : k ∈ keys (decodeDict d) := hk ▸ List.mem_map.mpr ⟨e, he, rfl⟩
  rw [keys_decodeDict] at this
  obtain ⟨x, hx, hxk⟩ := List.mem_map.mp this
  exact h x hx hxk

theorem get?_decoded_last (k : Str) (v : Val) (before after : List (Str × Val)) (h : ∀ e ∈ after, e.1 ≠ k) :
    get? k (byteify (decodeDict (before ++ (k, v) :: after))) = some (decode v) := by
  rw [decodeDict_append, decodeDict]
  exact byteify_last k _ _ _ (decodeDict_absent h)

theorem held_of_get? {d : Dict Str Val} {k : Str} {v w : Val} {way : List (Nat ⊕ Str)} (hd : Ok d)
    (h : get? k d = some v) (hw : HeldAt v way w) : HeldAt (.dict d) (.inr k :: way) w := by
  obtain ⟨b, a, rfl⟩ := List.append_of_mem (mem_of_get? h)
  refine .entry b a k v way w ?_ hw
  intro e he hk
  unfold Ok keys at hd
  rw [List.map_append, List.map_cons] at hd
  exact (List.nodup_cons.1 (List.nodup_append.1 hd).2.1).1 (List.mem_map.mpr ⟨e, he, hk⟩)

theorem get?_of_held {d : Dict Str Val} {k : Str} {w : Val} {way : List (Nat ⊕ Str)} (hd : Ok d)
    (h : HeldAt (.dict d) (.inr k :: way) w) : ∃ v, get? k d = some v ∧ HeldAt v way w := by
  cases h with
  | entry b a k v way w ha hw => exact ⟨v, get?_of_mem hd (by simp), hw⟩

theorem held_decode {v w : Val} {way : List (Nat ⊕ Str)} (h : HeldAt v way w) : HeldAt (decode v) way (decode w) := by
  induction h with
  | here v => exact .here _
  | item b a v way w _ ih =>
    rw [decode, decodeList_append, decodeList, ← decodeList_length b]
    exact .item _ _ _ _ _ ih
  | entry b a k v way w ha _ ih =>
    rw [decode]
    exact held_of_get? (ok_byteify _) (get?_decoded_last k v b a ha) ih

theorem held_of_decode {way : List (Nat ⊕ Str)} : ∀ {v x : Val}, HeldAt (decode v) way x →
    ∃ w, HeldAt v way w ∧ x = decode w := by
  induction way with
  | nil =>
    intro v x h
    generalize hy : decode v = y at h
    cases h
    exact ⟨v, .here v, hy.symm⟩
  | cons s way ih =>
    intro v x h
    generalize hy : decode v = y at h
    cases h with
    | item b a u _ _ hu =>
      cases v <;> simp only [decode, Val.list.injEq, reduceCtorEq] at hy
      obtain ⟨b', u', a', rfl, hl, rfl⟩ := decodeList_split _ _ _ _ hy
      obtain ⟨w, hw, rfl⟩ := ih hu
      exact ⟨w, hl ▸ .item b' a' u' way w hw, rfl⟩
    | entry b a k u _ _ ha hu =>
      cases v with
      | dict d =>
        simp only [decode, Val.dict.injEq] at hy
        have hg : get? k (byteify (decodeDict d)) = some u :=
          get?_of_mem (ok_byteify _) (by rw [hy]; simp)
        rcases last_split k d with h | ⟨b', u', a', rfl, h⟩
        · rw [byteify_absent k _ (decodeDict_absent h)] at hg
          cases hg
        · rw [get?_decoded_last k u' b' a' h] at hg
          obtain rfl := Option.some.inj hg
          obtain ⟨w, hw, rfl⟩ := ih hu
          exact ⟨w, .entry b' a' k u' way w h hw, rfl⟩
      | _ => simp only [decode, reduceCtorEq] at hy

theorem decode_atom {w : Val} (h : Atom w) : decode w = w := by
  cases w <;> first | rfl | exact h.elim

theorem atom_of_decode {w x : Val} (h : Atom x) (hw : x = decode w) : w = x := by
  cases w with
  | list l => rw [decode] at hw; subst hw; exact h.elim
  | dict l => rw [decode] at hw; subst hw; exact h.elim
  | _ => exact hw.symm

theorem held_atom {v w : Val} {way : List (Nat ⊕ Str)} (h : Atom w) : HeldAt (decode v) way w ↔ HeldAt v way w := by
  constructor
  · intro hh
    obtain ⟨x, hx, he⟩ := held_of_decode hh
    exact atom_of_decode h he ▸ hx
  · intro hh
    exact decode_atom h ▸ held_decode hh

theorem ok_located {path real : Str} {d : Dict Str Val} (h : Ok d) : Ok (located path real d) :=
  ok_set (ok_set (ok_set h _ _) _ _) _ _

theorem load_text {expand : Str → Str} {expanders : List (Str → Str)} {convert : Dict Str Val → Option (Dict Str Val)}
    {files : Dict Str Str} {path real stem text : Str} {d : List (Str × Val)}
    (hr : realPath expand expanders (filesOf files) path = real) (hg : GraphFile real stem)
    (hf : get? real files = some text) (ht : DocText (.dict d) text)
    (hv : HeldAt (.dict d) [.inr "version".toList] (.str "1.17".toList)) :
    loadFileData expand expanders convert (filesOf files) path
      = .ok (located path real (byteify (decodeDict d))) := by
  have hc := ((C159_files text).1 d).mpr ht
  have hf' : get? real (filesOf files) = some (.json d) := by
    have : ∀ l : Dict Str Str, get? real (filesOf l) = (get? real l).map contentOf := by
      intro l
      induction l with
      | nil => rfl
      | cons e l ih =>
        obtain ⟨k, t⟩ := e
        simp only [filesOf, List.map_cons, get?] at ih ⊢
        split
        · rfl
        · exact ih
    rw [this, hf, Option.map_some, hc]
  unfold loadFileData
  dsimp only
  rw [hr, if_neg (not_not_intro (splitext_graph hg).1), hf']
  dsimp only
  have hver : get? "version".toList (byteify (decodeDict d)) = some (.str "1.17".toList) := by
    have h := held_decode hv
    rw [decode] at h
    obtain ⟨v, h1, h2⟩ := get?_of_held (ok_byteify _) h
    cases h2
    exact h1
  have : upgrade convert (byteify (decodeDict d)) = .ok (byteify (decodeDict d)) := by
    unfold upgrade
    rw [hver]
    dsimp only
    rw [show Version.gate (some "1.17".toList) = .asIs by decide +kernel]
  rw [this]

end Twice

open Twice Txt

/-- C160: a graph file of the current version, whatever keys are written twice in it, is read without error; at every
place in the data is the value which is there in the text when, of entries with one key, the last one counts. -/
theorem C160_last (expand : Str → Str) (expanders : List (Str → Str)) (convert : Dict Str Val → Option (Dict Str Val))
    (files : Dict Str Str) (path real stem text : Str) (d : List (Str × Val))
    (hr : Disk.realPath expand expanders (filesOf files) path = real) (hg : GraphFile real stem)
    (hf : get? real files = some text) (ht : DocText (.dict d) text)
    (hv : HeldAt (.dict d) [.inr "version".toList] (.str "1.17".toList)) :
    ∃ e, Disk.loadFileData expand expanders convert (filesOf files) path = .ok e ∧
      ∀ k way w, k ∉ locationKeys → Atom w →
        (HeldAt (.dict e) (.inr k :: way) w ↔ HeldAt (.dict d) (.inr k :: way) w) := by
  refine ⟨_, load_text hr hg hf ht hv, ?_⟩
  intro k way w hk ha
  rw [← held_atom (v := .dict d) ha, Disk.decode]
  have hok : Ok (Disk.located path real (Disk.byteify (Disk.decodeDict d))) := ok_located (ok_byteify _)
  have hget : get? k (Disk.located path real (Disk.byteify (Disk.decodeDict d)))
      = get? k (Disk.byteify (Disk.decodeDict d)) := by
    have hne : ∀ s ∈ locationKeys, k ≠ s := by rintro s hs rfl; exact hk hs
    rw [get?_located, if_neg (hne _ (by decide)), if_neg (hne _ (by decide)), if_neg (hne _ (by decide))]
  constructor
  · intro h
    obtain ⟨v, h1, h2⟩ := get?_of_held hok h
    exact held_of_get? (ok_byteify _) (hget ▸ h1) h2
  · intro h
    obtain ⟨v, h1, h2⟩ := get?_of_held (ok_byteify _) h
    exact held_of_get? hok (hget.trans h1) h2

/-- C160: no dict in the data has a key twice, and its keys are in the order in which they first come in the text. -/
theorem C160_order (v : Val) (way : List (Nat ⊕ Str)) :
    (∀ d, HeldAt (Disk.decode v) way (.dict d) → (keys d).Nodup) ∧
    (∀ d, HeldAt v way (.dict d) → ∃ d', HeldAt (Disk.decode v) way (.dict d') ∧ keys d' = firstTimes (keys d)) := by
  constructor
  · intro d h
    obtain ⟨w, -, he⟩ := held_of_decode h
    cases w with
    | dict d0 =>
      simp only [Disk.decode, Val.dict.injEq] at he
      subst he
      exact ok_byteify _
    | _ => simp only [Disk.decode, reduceCtorEq] at he
  · intro d h
    have h' := held_decode h
    rw [Disk.decode] at h'
    exact ⟨_, h', by rw [keys_byteify, keys_decodeDict]⟩

namespace Twice

/-- A node written twice, first with `b`. -/
def exNodes (b : Bool) : List (Str × Val) :=
  [("/a".toList, .dict [("enabled".toList, .bool b)]), ("/a".toList, .dict [("comment".toList, .str "c".toList)])]

/-- A graph with it. -/
def exTwice (b : Bool) : List (Str × Val) := [("version".toList, .str "1.17".toList), ("nodes".toList, .dict (exNodes b))]

theorem exTwice_json (b : Bool) : JsonVal (.dict (exTwice b)) := by
  refine .dict _ ?_
  simp only [exTwice, exNodes, List.forall_mem_cons, List.not_mem_nil, false_implies, implies_true, and_true]
  refine ⟨.str _, .dict _ ?_⟩
  simp only [List.forall_mem_cons, List.not_mem_nil, false_implies, implies_true, and_true]
  refine ⟨.dict _ ?_, .dict _ ?_⟩ <;>
    simp only [List.forall_mem_cons, List.not_mem_nil, false_implies, implies_true, and_true]
  · exact .bool _
  · exact .str _

theorem exTwice_version (b : Bool) : HeldAt (.dict (exTwice b)) [.inr "version".toList] (.str "1.17".toList) :=
  .entry [] [("nodes".toList, .dict (exNodes b))] _ _ _ _ (by simp) (.here _)

end Twice

/-- The file has the comment of the second node. -/
example : ∃ e, Disk.loadFileData id [] some (filesOf [("/g.nxt".toList, dump (fun _ => []) 0 (.dict (exTwice true)))])
      "/g.nxt".toList = .ok e ∧
    HeldAt (.dict e) [.inr "nodes".toList, .inr "/a".toList, .inr "comment".toList] (.str "c".toList) := by
  obtain ⟨e, he, h⟩ := C160_last id [] some [("/g.nxt".toList, dump (fun _ => []) 0 (.dict (exTwice true)))]
    "/g.nxt".toList "/g.nxt".toList _ _ (exTwice true) rfl exGraphFile rfl (C159_written _ _ (exTwice_json true))
    (exTwice_version true)
  refine ⟨e, he, (h _ _ (.str _) (by decide) trivial).mpr ?_⟩
  exact .entry [("version".toList, .str "1.17".toList)] [] _ _ _ _ (by simp)
    (.entry [("/a".toList, .dict [("enabled".toList, .bool true)])] [] _ _ _ _ (by simp)
      (.entry [] [] _ _ _ _ (by simp) (.here _)))

/-- C160, finding: files can differ in what they say of a node and be read alike, without error.  A file which has two
nodes with one path, as careless merging of two versions of a graph leaves it, is taken with the second of them. -/
theorem C160_lost_violation : ∃ (s s' : Str) (v v' : List (Str × Val)), DocText (.dict v) s ∧ DocText (.dict v') s' ∧
    v ≠ v' ∧ ∃ e, Disk.loadFileData id [] some (filesOf [("/g.nxt".toList, s)]) "/g.nxt".toList = .ok e ∧
      Disk.loadFileData id [] some (filesOf [("/g.nxt".toList, s')]) "/g.nxt".toList = .ok e := by
  have h : ∀ b, DocText (.dict (exTwice b)) (dump (fun _ => []) 0 (.dict (exTwice b))) :=
    fun b => C159_written _ _ (exTwice_json b)
  have hl : ∀ b, Disk.loadFileData id [] some (filesOf [("/g.nxt".toList, dump (fun _ => []) 0 (.dict (exTwice b)))])
      "/g.nxt".toList = .ok (Disk.located "/g.nxt".toList "/g.nxt".toList (Disk.byteify (Disk.decodeDict (exTwice b)))) :=
    fun b => load_text rfl exGraphFile rfl (h b) (exTwice_version b)
  have he : Disk.byteify (Disk.decodeDict (exTwice false)) = Disk.byteify (Disk.decodeDict (exTwice true)) := rfl
  exact ⟨_, _, exTwice true, exTwice false, h true, h false, by simp [exTwice, exNodes], _, hl true, he ▸ hl false⟩

namespace Twice
open Disk

theorem fold_congr (j : Str) (d r r' : Dict Str Val) (h : get? j r = get? j r') :
    get? j (d.foldl (fun r kv => set kv.1 (byteifyItem kv.2) r) r)
      = get? j (d.foldl (fun r kv => set kv.1 (byteifyItem kv.2) r) r') := by
  induction d generalizing r r' with
  | nil => exact h
  | cons e d ih =>
    rw [List.foldl_cons, List.foldl_cons]
    apply ih
    rw [get?_set, get?_set, h]

theorem dict_ext {d e : Dict Str Val} (hd : Ok d) (he : Ok e) (hk : keys d = keys e)
    (h : ∀ k, get? k d = get? k e) : d = e := by
  have aux : ∀ {f : Dict Str Val}, Ok f → f = (keys f).map (fun k => (k, (get? k f).getD .none)) := by
    intro f hf
    have : f = f.map (fun x => (x.1, (get? x.1 f).getD .none)) := by
      conv => lhs; rw [← List.map_id f]
      apply List.map_congr_left
      intro x hx
      rw [get?_of_mem hf (show (x.1, x.2) ∈ f from hx)]
      rfl
    rw [keys, List.map_map]
    exact this
  rw [aux hd, aux he, hk]
  simp only [h]

end Twice

/-- C160: in general, the value of an entry has no bearing if an entry with its key comes later in the dict. -/
theorem C160_ignored (a b c : List (Str × Val)) (k : Str) (v x w : Val) :
    Disk.decode (.dict (a ++ (k, v) :: b ++ (k, w) :: c)) = Disk.decode (.dict (a ++ (k, x) :: b ++ (k, w) :: c)) := by
  rw [Disk.decode, Disk.decode]
  congr 1
  refine dict_ext (ok_byteify _) (ok_byteify _) ?_ ?_
  · rw [keys_byteify, keys_byteify, keys_decodeDict, keys_decodeDict]
    simp [keys]
  · intro j
    simp only [decodeDict_append, Disk.decodeDict, Disk.byteify, List.foldl_append, List.foldl_cons, List.cons_append]
    apply fold_congr
    rw [get?_set, get?_set]
    split
    · rfl
    · rename_i hj
      apply fold_congr
      rw [get?_set, get?_set, if_neg hj, if_neg hj]

/-- C159: writing a file anew, with other blanks or escapes, makes no difference to anything which is read from the
files: two texts written for one value are the same file. -/
theorem C159_reformatted (files : Dict Str Str) (p s s' : Str) (v : Val) (h : DocText v s) (h' : DocText v s') :
    filesOf (set p s files) = filesOf (set p s' files) := by
  rw [filesOf_set, filesOf_set, contentOf, contentOf, (C159_exact s v).mpr h, (C159_exact s' v).mpr h']

/-- A list with and without blanks. -/
example : filesOf (set "/g.nxt".toList "{}".toList []) = filesOf (set "/g.nxt".toList "{ }\n".toList []) :=
  C159_reformatted [] _ _ _ (.dict [])
    ⟨[], ['{', '}'], [], (by intro c hc; cases hc), .noEntries [] (by intro c hc; cases hc), (by intro c hc; cases hc), rfl⟩
    ⟨[], ['{', ' ', '}'], ['\n'], (by intro c hc; cases hc), .noEntries [' '] (by simp [Blanks]), (by simp [Blanks]), rfl⟩

end Nxt.Props
