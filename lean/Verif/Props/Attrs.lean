import Verif.Lemmas.Attrs
/-!
# C85–C89: editing user attributes
-/
namespace Nxt.Props
open Dict Spec NodeData Attrs

/-! ## C85 -/

/-- C85: adding an attribute gives it a name which is not protected and, unless the layer is muted, new to the
node; the wanted name (made legal) if that is possible.  The node keeps the data given, with the layer and the
node as source, and all other attributes. -/
theorem C85_add (c : Ctx) (n : Dict Str Val) (hn : Ok n) (a l : Str) (hl : Names.legalize c.cc a = some l) (hs : AttrName l)
    (hf : (localNames c n ++ c.prot).length + 2 ≤ c.fuel) (data : Dict Str Val) (hd : Ok data) (tracked : Bool) :
    ∃ b n', addAttr c n a data tracked = some (b, n') ∧ Ok n' ∧ AttrName b ∧ b ∉ c.prot ∧
      (c.muted = false → b ∉ keys n) ∧ (l ∉ c.prot → l ∉ keys n → b = l) ∧ OthersKept b n n' ∧
      look n' b .value = (get? "value".toList data).or (look n b .value) ∧
      look n' b .comment = (get? "comment".toList data).or (look n b .comment) ∧
      look n' b .type = (get? "type".toList data).or (look n b .type) ∧
      look n' b .source = if tracked then some (.src c.layer c.path) else look n b .source := by
  obtain ⟨b, h1, h2, h3, h4, h5⟩ := freeName_spec (n := n) hl hs hf
  obtain ⟨o, k⟩ := addFold h2 data hd n hn
  refine ⟨b, if tracked then set (b ++ M_SOURCE) (src c) (data.foldl (addSub b) n) else data.foldl (addSub b) n,
    by unfold addAttr; rw [h1]; rfl, ?_, h2, h3, h4, h5, ?_⟩
  · split
    · exact ok_set o _ _
    · exact o
  have key : ∀ x f, AttrName x →
      look (if tracked then set (b ++ M_SOURCE) (src c) (data.foldl (addSub b) n) else data.foldl (addSub b) n) x f =
      if x = b ∧ f = .source ∧ tracked = true then some (.src c.layer c.path) else look (data.foldl (addSub b) n) x f := by
    intro x f hx
    cases tracked
    · simp
    · simp only [if_true, and_true]
      exact look_set .source f (src c) h2 hx
  refine ⟨fun x f hx hxb => ?_, ?_, ?_, ?_, ?_⟩
  · rw [key x f hx, if_neg (fun h => hxb h.1), k x f hx, if_neg (fun h => hxb h.1)]
  · rw [key b _ h2, if_neg (fun h => nomatch h.2.1), k b _ h2, if_pos ⟨rfl, fun h => nomatch h⟩]; rfl
  · rw [key b _ h2, if_neg (fun h => nomatch h.2.1), k b _ h2, if_pos ⟨rfl, fun h => nomatch h⟩]; rfl
  · rw [key b _ h2, if_neg (fun h => nomatch h.2.1), k b _ h2, if_pos ⟨rfl, fun h => nomatch h⟩]; rfl
  · rw [key b _ h2, k b _ h2, if_neg (c := b = b ∧ Field.source ≠ .source) (fun h => h.2 rfl)]
    simp

/-- C85 fails on a muted layer: the attributes of the node are not seen, and the one with the wanted name is
overwritten. -/
theorem C85_muted_violation (c : Ctx) (hm : c.muted = true) (n : Dict Str Val) (a : Str) (hl : Legal c.cc a) (hp : a ∉ c.prot)
    (hf : 0 < c.fuel) (v : Val) :
    ∃ n', addAttr c n a [("value".toList, v)] true = some (a, n') ∧ get? a n' = some v := by
  have h1 : freeName c n a = some a := freeName_self (legal_iff hl) hf hp (by rw [mem_localNames, hm]; simp)
  refine ⟨set (a ++ M_SOURCE) (src c) (set a v n), by unfold addAttr; rw [h1]; rfl, ?_⟩
  rw [get?_set, if_neg, get?_set, if_pos rfl]
  intro e
  have := congrArg List.length e
  rw [List.length_append] at this
  exact absurd this (by have : M_SOURCE.length = 12 := rfl; omega)

/-- A node with one attribute, for the examples. -/
def exAttrNode : Dict Str Val :=
  [("x".toList, .num 1), ("x_comment__nxt".toList, .str "one".toList), ("x_type__nxt".toList, .str "int".toList),
   ("_enabled".toList, .bool true)]

def exAttrCtx : Ctx where
  cc := asciiClass
  builtins := ["__doc__".toList]
  prot := ["__doc__".toList, "_enabled".toList]
  muted := false
  layer := some "l.nxt".toList
  path := "/n".toList
  typeName := fun | .num _ => "int".toList | .none => "NoneType".toList | _ => "raw".toList
  text := fun | .num n => Names.dec n.toNat | _ => "?".toList
  fuel := 9

/-- The part of a node that texts show. -/
def shown (n : Dict Str Val) (k : Str) : Option Str :=
  (get? k n).map (fun | .str s => s | .none => "None".toList | .num n => Names.dec n.toNat | .src _ p => p | _ => "?".toList)

example : (localNames exAttrCtx exAttrNode ++ exAttrCtx.prot).length + 2 ≤ exAttrCtx.fuel := by decide +kernel

example : (addAttr exAttrCtx exAttrNode "x".toList [("value".toList, .num 7)] true).map (fun r =>
    (r.1, shown r.2 "x".toList, shown r.2 "x2".toList, shown r.2 "x2_source__nxt".toList)) =
    some ("x2".toList, some "1".toList, some "7".toList, some "/n".toList) := by decide +kernel

example : (addAttr exAttrCtx exAttrNode "my attr".toList [("value".toList, .num 7)] true).map Prod.fst =
    some "my_attr".toList := by decide +kernel

/-! ## C86 -/

/-- C86: deleting an attribute of the node deletes its value, comment, type and source, and nothing else. -/
theorem C86_delete (c : Ctx) (n : Dict Str Val) (hn : Ok n) (a : Str) (ha : AttrName a) (hk : a ∈ keys n) :
    ∃ n', deleteAttr c n a = (some true, n') ∧ Ok n' ∧ OthersKept a n n' ∧ ∀ f, look n' a f = none := by
  obtain ⟨o, k⟩ := dropMetas hn ha
  have hv : a ∈ keys (METAS.foldl (dropMeta a) n) := by
    have h := k a .value ha
    rw [if_neg (fun h => h.2 rfl), look_value, look_value] at h
    exact get?_isSome.1 (by rw [h]; exact get?_isSome.2 hk)
  refine ⟨erase a (METAS.foldl (dropMeta a) n), ?_, ok_erase o _, ?_, ?_⟩
  · unfold deleteAttr
    rw [if_pos (.inl hk)]
    simp only [if_pos hv]
  · intro b f hb hba
    rw [erase_value, look_erase o .value f ha hb, if_neg (fun h => hba h.1), k b f hb, if_neg (fun h => hba h.1)]
  · intro f
    rw [erase_value, look_erase o .value f ha ha, k a f ha]
    by_cases h : f = .value
    · rw [if_pos ⟨rfl, h⟩]
    · rw [if_neg (fun e => h e.2), if_pos ⟨rfl, h⟩]

/-- C86: for an attribute which is not there nothing is done. -/
theorem C86_absent (c : Ctx) (n : Dict Str Val) (a : Str) (h1 : a ∉ keys n) (h2 : a ∉ c.builtins)
    (h3 : a ∉ ["_name".toList, "_parent_path".toList, "_child_order".toList, "_proxy".toList, "_enabled".toList]) :
    deleteAttr c n a = (some false, n) := by
  unfold deleteAttr
  rw [if_neg]
  rintro (h | h | h)
  · exact h1 h
  · exact h3 h
  · exact h2 h

/-- C86 fails for what a node has from its class: the question whether it exists is answered with yes, its
comment, type and source are deleted, and then `delattr` raises. -/
theorem C86_class_violation (c : Ctx) (n : Dict Str Val) (hn : Ok n) (a : Str) (ha : AttrName a) (h1 : a ∉ keys n)
    (h2 : a ∈ c.builtins) : (deleteAttr c n a).1 = none ∧ ∀ f, look (deleteAttr c n a).2 a f = none := by
  obtain ⟨o, k⟩ := dropMetas hn ha
  have hv : a ∉ keys (METAS.foldl (dropMeta a) n) := by
    have h := k a .value ha
    rw [if_neg (fun h => h.2 rfl), look_value, look_value, get?_eq_none.2 h1] at h
    exact get?_eq_none.1 h
  unfold deleteAttr
  rw [if_pos (.inr (.inr h2))]
  simp only [if_neg hv]
  refine ⟨trivial, fun f => ?_⟩
  rw [k a f ha]
  by_cases h : f = .value
  · rw [if_neg (fun e => e.2 h), h]; exact look_none h1
  · rw [if_pos ⟨rfl, h⟩]

/-- C86: an attribute added and deleted again leaves the attributes as they were, if nothing was kept under
its name before. -/
theorem C86_add_delete (c : Ctx) (hm : c.muted = false) (n : Dict Str Val) (hn : Ok n) (a l : Str)
    (hl : Names.legalize c.cc a = some l) (hs : AttrName l) (hf : (localNames c n ++ c.prot).length + 2 ≤ c.fuel)
    (data : Dict Str Val) (hd : Ok data) (hv : "value".toList ∈ keys data) (tracked : Bool) (b : Str) (n1 : Dict Str Val)
    (h1 : addAttr c n a data tracked = some (b, n1)) (hb : ∀ f, look n b f = none) :
    ∃ n2, deleteAttr c n1 b = (some true, n2) ∧ SameAttrs n n2 := by
  obtain ⟨b', n1', e, o, hb', -, h4, -, k, v, -⟩ := C85_add c n hn a l hl hs hf data hd tracked
  rw [h1] at e
  obtain ⟨rfl, rfl⟩ : b = b' ∧ n1 = n1' := by
    rw [Option.some.injEq, Prod.mk.injEq] at e; exact e
  have hk : b ∈ keys n1 := by
    rw [hb .value, Option.or_none, look_value] at v
    exact get?_isSome.1 (by rw [v]; exact get?_isSome.2 hv)
  obtain ⟨n2, e2, -, k2, d2⟩ := C86_delete c n1 o b hb' hk
  refine ⟨n2, e2, fun x f hx => ?_⟩
  by_cases hxb : x = b
  · subst hxb; rw [d2, hb]
  · rw [k2 x f hx hxb, k x f hx hxb]

example : let r := deleteAttr exAttrCtx exAttrNode "x".toList
    (r.1, keys r.2) = (some true, ["_enabled".toList]) := by decide +kernel
example : (deleteAttr exAttrCtx exAttrNode "__doc__".toList).1 = none := by decide +kernel
example : (deleteAttr exAttrCtx exAttrNode "y".toList).1 = some false := by decide +kernel

/-! ## C87 -/

/-- C87: renaming moves the value, comment, type and source to the new name, which is free, and leaves all
other attributes as they are. -/
theorem C87_rename (c : Ctx) (hm : c.muted = false) (n : Dict Str Val) (hn : Ok n) (a : Str) (ha : AttrName a) (hk : a ∈ keys n)
    (hp : a ∉ c.prot) (new l : Str) (hl : Names.legalize c.cc new = some l) (hs : AttrName l)
    (hf : (localNames c n ++ c.prot).length + 2 ≤ c.fuel) :
    ∃ b n', renameAttr c n a new = some n' ∧ Ok n' ∧ AttrName b ∧ b ∉ c.prot ∧ b ∉ keys n ∧
      (l ∉ c.prot → l ∉ keys n → b = l) ∧ (∀ f, look n' a f = none) ∧
      (∀ f, look n' b f = (look n a f).or (look n b f)) ∧
      ∀ x f, AttrName x → x ≠ a → x ≠ b → look n' x f = look n x f := by
  obtain ⟨b, h1, h2, h3, h4, h5⟩ := freeName_spec (n := n) hl hs hf
  have h4 := h4 hm
  have hab : a ≠ b := fun e => h4 (e ▸ hk)
  have hloc : a ∈ localNames c n := mem_localNames.2 ⟨hm, hk, hp, ha⟩
  have o1 : Ok (erase a (set b (getAttr n a) n)) := ok_erase (ok_set hn _ _) _
  have l1 : ∀ x f, AttrName x → look (erase a (set b (getAttr n a) n)) x f =
      if x = a ∧ f = .value then none else if x = b ∧ f = .value then some (getAttr n a) else look n x f := by
    intro x f hx
    rw [erase_value, look_erase (ok_set hn _ _) .value f ha hx, set_value, look_set .value f _ h2 hx]
  obtain ⟨o, k⟩ := moveMetas o1 ha h2 hab
  refine ⟨b, METAS.foldl (moveMeta a b) (erase a (set b (getAttr n a) n)), ?_, o, h2, h3, h4, h5, ?_, ?_, ?_⟩
  · unfold renameAttr
    rw [h1]
    simp only [Option.map_some, if_pos hloc]
  · intro f
    rw [k a f ha]
    by_cases hfv : f = .value
    · rw [if_pos hfv, l1 a f ha, if_pos ⟨rfl, hfv⟩]
    · rw [if_neg hfv, if_pos rfl]
  · intro f
    rw [k b f h2]
    by_cases hfv : f = .value
    · rw [if_pos hfv, l1 b f h2, if_neg (fun e => hab e.1.symm), if_pos ⟨rfl, hfv⟩, hfv, look_value]
      unfold getAttr
      obtain ⟨v, hv⟩ := Option.isSome_iff_exists.1 (get?_isSome.2 hk)
      rw [hv]; rfl
    · rw [if_neg hfv, if_neg hab.symm, if_pos rfl, l1 a f ha, if_neg (fun e => hfv e.2), if_neg (fun e => hfv e.2),
        l1 b f h2, if_neg (fun e => hfv e.2), if_neg (fun e => hfv e.2)]
  · intro x f hx hxa hxb
    rw [k x f hx]
    have : look (erase a (set b (getAttr n a) n)) x f = look n x f := by
      rw [l1 x f hx, if_neg (fun e => hxa e.1), if_neg (fun e => hxb e.1)]
    rw [if_neg hxa, if_neg hxb, this]
    split <;> rfl

/-- C87: renaming to a free legal name and back leaves the attributes as they were. -/
theorem C87_back (c : Ctx) (hm : c.muted = false) (n : Dict Str Val) (hn : Ok n) (a b : Str) (ha : AttrName a) (hk : a ∈ keys n)
    (hp : a ∉ c.prot) (hla : Legal c.cc a) (hb : AttrName b) (hlb : Legal c.cc b) (hpb : b ∉ c.prot)
    (hfree : ∀ f, look n b f = none) (n1 : Dict Str Val)
    (h1 : renameAttr c n a b = some n1) (hsmall : (localNames c n1 ++ c.prot).length + 2 ≤ c.fuel)
    (hsmall0 : (localNames c n ++ c.prot).length + 2 ≤ c.fuel) :
    ∃ n2, renameAttr c n1 b a = some n2 ∧ SameAttrs n n2 := by
  have hbk : b ∉ keys n := get?_eq_none.1 (look_value.symm.trans (hfree .value))
  obtain ⟨b', n1', e1, o1, -, -, -, hl1, g1, m1, k1⟩ := C87_rename c hm n hn a ha hk hp b b (legal_iff hlb) hb hsmall0
  obtain rfl := hl1 hpb hbk
  rw [h1, Option.some.injEq] at e1
  subst e1
  have m1' : ∀ f, look n1 b' f = look n a f := fun f => by rw [m1 f, hfree f, Option.or_none]
  have hk1 : b' ∈ keys n1 := get?_isSome.1 (by rw [← look_value, m1', look_value]; exact get?_isSome.2 hk)
  have ha1 : a ∉ keys n1 := get?_eq_none.1 (look_value.symm.trans (g1 .value))
  obtain ⟨a', n2, e2, -, -, -, -, hl2, g2, m2, k2⟩ := C87_rename c hm n1 o1 b' hb hk1 hpb a a (legal_iff hla) ha hsmall
  obtain rfl := hl2 hp ha1
  refine ⟨n2, e2, fun x f hx => ?_⟩
  by_cases hxa : x = a'
  · subst hxa; rw [m2, g1, Option.or_none, m1']
  · by_cases hxb : x = b'
    · subst hxb; rw [g2, hfree]
    · rw [k2 x f hx hxb hxa, k1 x f hx hxa hxb]

/-- C87 fails for the name the attribute has: it is counted as taken, so the attribute gets another name. -/
theorem C87_same_name_violation (c : Ctx) (hm : c.muted = false) (n : Dict Str Val) (hn : Ok n) (a : Str) (ha : AttrName a)
    (hk : a ∈ keys n) (hp : a ∉ c.prot) (hl : Legal c.cc a) (hf : (localNames c n ++ c.prot).length + 2 ≤ c.fuel) :
    ∃ n', renameAttr c n a a = some n' ∧ a ∉ keys n' := by
  obtain ⟨b, n', e, -, -, -, -, -, g, -⟩ := C87_rename c hm n hn a ha hk hp a a (legal_iff hl) ha hf
  exact ⟨n', e, get?_eq_none.1 (look_value.symm.trans (g .value))⟩

/-- C87 fails on a muted layer: nothing is renamed. -/
theorem C87_muted_violation (c : Ctx) (hm : c.muted = true) (n : Dict Str Val) (a new : Str) (n' : Dict Str Val)
    (h : renameAttr c n a new = some n') : n' = n := by
  unfold renameAttr at h
  obtain ⟨b, -, e⟩ := Option.map_eq_some_iff.1 h
  rw [if_neg (by rw [mem_localNames, hm]; simp)] at e
  exact e.symm

example : (renameAttr exAttrCtx exAttrNode "x".toList "y".toList).map keys =
    some ["_enabled".toList, "y".toList, "y_comment__nxt".toList, "y_type__nxt".toList] := by decide +kernel
example : (renameAttr exAttrCtx exAttrNode "x".toList "x".toList).map keys =
    some ["_enabled".toList, "x2".toList, "x2_comment__nxt".toList, "x2_type__nxt".toList] := by decide +kernel

/-! ## C88 -/

/-- C88: setting the value and the comment of an attribute of the node.  A value comes with its type and its
source; an empty text is stored as `None`; what is not given stays; all other attributes stay. -/
theorem C88_set (c : Ctx) (hm : c.muted = false) (n : Dict Str Val) (hn : Ok n) (a : Str) (ha : AttrName a) (hk : a ∈ keys n)
    (hp : a ∉ c.prot) (create : Bool) (vs : Dict Str Val) (hv : Ok vs) (ht : "type".toList ∉ keys vs)
    (hs : "source".toList ∉ keys vs) :
    ∃ n', setData c n a create vs = some n' ∧ Ok n' ∧ OthersKept a n n' ∧
      look n' a .value = ((get? "value".toList vs).map orNone).or (look n a .value) ∧
      look n' a .comment = ((get? "comment".toList vs).map orNone).or (look n a .comment) ∧
      look n' a .type = ((get? "value".toList vs).map (fun v => .str (c.typeName (orNone v)))).or (look n a .type) ∧
      look n' a .source = ((get? "value".toList vs).map (fun _ => .src c.layer c.path)).or (look n a .source) := by
  obtain ⟨n', e, h⟩ := setFold_here (create := create) (ws := vs) vs ha hp
    (mem_localNames.2 ⟨hm, hk, hp, ha⟩ : a ∈ localNames c n) hn hv ht hs
  exact ⟨n', by unfold setData; rw [e]; rfl, h⟩

/-- C88: without leave to create, an attribute which is not the node's own is not set. -/
theorem C88_not_created (c : Ctx) (n : Dict Str Val) (a : Str) (h : a ∉ keys n ∨ a ∈ c.prot) (vs : Dict Str Val) :
    setData c n a false vs = some n := by
  have hl : a ∉ localNames c n := by
    rw [mem_localNames]
    rintro ⟨-, h1, h2, -⟩
    exact h.elim (fun h => h h1) (fun h => h2 h)
  have : ∀ ws : Dict Str Val, ws.foldlM (setSub c a false vs) (n, localNames c n) = some (n, localNames c n) := by
    intro ws
    induction ws with
    | nil => rfl
    | cons kv ws ih =>
      rw [List.foldlM_cons]
      have : setSub c a false vs (n, localNames c n) kv = some (n, localNames c n) := by
        unfold setSub
        split
        · rfl
        · rfl
      rw [this]
      exact ih
  unfold setData
  rw [this]; rfl

/-- C88: a new attribute with a value and a comment, in this order, under a free and legal name: the value is
stored as it is, the source is recorded.  The type is not (`C88_type_violation`), and other orders and names
are not covered (`C88_order_violation`, `C88_illegal_name_violation`). -/
theorem C88_create_partial (c : Ctx) (n : Dict Str Val) (hn : Ok n) (a : Str) (ha : AttrName a) (hl : Legal c.cc a)
    (hp : a ∉ c.prot) (hk : a ∉ localNames c n) (hf : 0 < c.fuel) (v m : Val) :
    ∃ n', setData c n a true [("value".toList, v), ("comment".toList, m)] = some n' ∧ Ok n' ∧ OthersKept a n n' ∧
      look n' a .value = some v ∧ look n' a .comment = some (orNone m) ∧ look n' a .type = look n a .type ∧
      look n' a .source = some (.src c.layer c.path) := by
  have h1 : freeName c n a = some a := freeName_self (legal_iff hl) hf hp hk
  have hd : Ok ([("value".toList, v), ("comment".toList, m)] : Dict Str Val) := by
    show ["value".toList, "comment".toList].Nodup
    decide +kernel
  obtain ⟨o, k⟩ := addFold ha _ hd n hn
  have s1 : setSub c a true [("value".toList, v), ("comment".toList, m)] (n, localNames c n) ("value".toList, v) =
      some (set (a ++ M_SOURCE) (src c) ([("value".toList, v), ("comment".toList, m)].foldl (addSub a) n),
        localNames c n ++ [a]) := by
    unfold setSub
    rw [if_neg (fun h => h.1 rfl), if_neg hk, if_pos rfl]
    unfold addAttr
    rw [h1]
    rfl
  have g : ∀ f : Field, get? f.key ([("value".toList, v), ("comment".toList, m)] : Dict Str Val) =
      match f with | .value => some v | .comment => some m | _ => none := by
    intro f; cases f <;> rfl
  have l1 : ∀ x f, AttrName x →
      look (set (a ++ M_SOURCE) (src c) ([("value".toList, v), ("comment".toList, m)].foldl (addSub a) n)) x f =
      if x = a ∧ f = .source then some (.src c.layer c.path)
      else look ([("value".toList, v), ("comment".toList, m)].foldl (addSub a) n) x f :=
    fun x f hx => look_set .source f (src c) ha hx
  obtain ⟨n2, e2, o2, k2, v2, c2, t2, s2⟩ := setFold_here (c := c) (create := true)
    (ws := [("value".toList, v), ("comment".toList, m)]) [("comment".toList, m)] ha hp
    (List.mem_append_right (localNames c n) (List.mem_singleton.2 rfl)) (ok_set o (a ++ M_SOURCE) (src c))
    (by show ["comment".toList].Nodup; decide +kernel) (by show Field.type.key ∉ ["comment".toList]; decide +kernel)
    (by show Field.source.key ∉ ["comment".toList]; decide +kernel)
  have gv : get? Field.value.key ([("comment".toList, m)] : Dict Str Val) = none := rfl
  have gc : get? Field.comment.key ([("comment".toList, m)] : Dict Str Val) = some m := rfl
  rw [gv] at v2 t2 s2
  rw [gc] at c2
  refine ⟨n2, ?_, o2, ?_, ?_, ?_, ?_, ?_⟩
  · unfold setData
    rw [List.foldlM_cons, s1]
    show Option.map Prod.fst (List.foldlM _ _ [("comment".toList, m)]) = some n2
    rw [e2]; rfl
  · intro x f hx hxa
    rw [k2 x f hx hxa, l1 x f hx, if_neg (fun e => hxa e.1), k x f hx, if_neg (fun e => hxa e.1)]
  · rw [v2, l1 a _ ha, if_neg (fun e => nomatch e.2), k a _ ha, if_pos ⟨rfl, fun e => nomatch e⟩, g]; rfl
  · rw [c2]; rfl
  · rw [t2, l1 a _ ha, if_neg (fun e => nomatch e.2), k a _ ha, if_pos ⟨rfl, fun e => nomatch e⟩, g]; rfl
  · rw [s2, l1 a _ ha, if_pos ⟨rfl, rfl⟩]; rfl

/-- C88 fails for the type of a new attribute: it is not recorded, while setting the same value once more
records it. -/
theorem C88_type_violation :
    (setData exAttrCtx exAttrNode "y".toList true [("value".toList, .num 5)]).map (fun n => shown n "y_type__nxt".toList) =
      some none ∧
    ((setData exAttrCtx exAttrNode "y".toList true [("value".toList, .num 5)]).bind (fun n =>
      setData exAttrCtx n "y".toList true [("value".toList, .num 5)])).map (fun n => shown n "y_type__nxt".toList) =
      some (some "int".toList) := by decide +kernel

/-- C88 fails for a new attribute with an empty text: which of value and comment comes first decides what is
stored. -/
theorem C88_order_violation :
    (setData exAttrCtx exAttrNode "y".toList true [("value".toList, .str []), ("comment".toList, .str "c".toList)]).map
      (fun n => shown n "y".toList) = some (some []) ∧
    (setData exAttrCtx exAttrNode "y".toList true [("comment".toList, .str "c".toList), ("value".toList, .str [])]).map
      (fun n => shown n "y".toList) = some (some "None".toList) := by decide +kernel

/-- C88 fails for a new attribute whose name is not legal: with a value and a comment the node gets two
attributes, one under the legal name, the other with only the comment under the wanted name. -/
theorem C88_illegal_name_violation :
    (setData exAttrCtx [] "my attr".toList true [("value".toList, .num 5), ("comment".toList, .str "c".toList)]).map keys =
      some ["my_attr".toList, "my_attr_comment__nxt".toList, "my_attr_source__nxt".toList, "my attr_comment__nxt".toList] := by
  decide +kernel

/-- C88 fails for the built-in attributes of a class, which are not to be set ("Only set attr if its not a
python builtin"): with a value behind a comment they are. -/
theorem C88_builtin_violation :
    (setData exAttrCtx [] "__doc__".toList true [("comment".toList, .str "c".toList), ("value".toList, .num 5)]).map
      (fun n => (shown n "__doc__2".toList, shown n "__doc__".toList)) = some (some "5".toList, some "5".toList) := by
  decide +kernel

/-- C88 fails on a muted layer: no attribute is set. -/
theorem C88_muted_violation (c : Ctx) (hm : c.muted = true) (n : Dict Str Val) (a : Str) (vs : Dict Str Val) :
    setData c n a false vs = some n := by
  have hl : a ∉ localNames c n := by rw [mem_localNames, hm]; simp
  have : ∀ ws : Dict Str Val, ws.foldlM (setSub c a false vs) (n, localNames c n) = some (n, localNames c n) := by
    intro ws
    induction ws with
    | nil => rfl
    | cons kv ws ih =>
      rw [List.foldlM_cons]
      have : setSub c a false vs (n, localNames c n) kv = some (n, localNames c n) := by
        unfold setSub
        split
        · rfl
        · rfl
      rw [this]
      exact ih
  unfold setData
  rw [this]; rfl

example : (setData exAttrCtx exAttrNode "x".toList false [("value".toList, .str [])]).map (fun n =>
    (shown n "x".toList, shown n "x_type__nxt".toList, shown n "x_comment__nxt".toList, shown n "x_source__nxt".toList)) =
    some (some "None".toList, some "NoneType".toList, some "one".toList, some "/n".toList) := by decide +kernel

/-! ## C89 -/

/-- C89: copying the user attributes `as` to a node which has none of them, in whatever order the set gives
them: every attribute is there with its comment (an empty one as `None`) and the target as source.  True values
are copied; the others are turned into texts: `None` into the empty text.  Types are not copied. -/
theorem C89_copy (c d : Ctx) (source target : Dict Str Val) (ht : Ok target) (hm : d.muted = false) (hf : 0 < d.fuel)
    (as : List Str) (hn : as.Nodup) (h : ∀ a ∈ as, AttrName a ∧ Legal d.cc a ∧ a ∉ d.prot ∧ a ∉ keys target) :
    ∃ n', transfer c d source target as = some n' ∧ Ok n' ∧
      (∀ a ∈ as, ∀ v, get? a source = some v →
        (v.truthy = true → look n' a .value = some v) ∧
        (v = .none → look n' a .value = some (.str [])) ∧
        (v.truthy = false → v ≠ .none → look n' a .value = some (.str (c.text v)))) ∧
      (∀ a ∈ as, look n' a .comment = some (orNone (getAttr source (a ++ "_comment__nxt".toList))) ∧
        look n' a .type = look target a .type ∧ look n' a .source = some (.src d.layer d.path)) ∧
      ∀ a f, AttrName a → a ∉ as → look n' a f = look target a f := by
  suffices H : ∃ n', transfer c d source target as = some n' ∧ Ok n' ∧
      (∀ a ∈ as, look n' a .value = some (rawValue c (getAttr source a)) ∧
        look n' a .comment = some (orNone (getAttr source (a ++ "_comment__nxt".toList))) ∧
        look n' a .type = look target a .type ∧ look n' a .source = some (.src d.layer d.path)) ∧
      ∀ a f, AttrName a → a ∉ as → look n' a f = look target a f by
    obtain ⟨n', e, o, h1, h2⟩ := H
    refine ⟨n', e, o, fun a ha v hv => ?_, fun a ha => (h1 a ha).2, h2⟩
    have hg : getAttr source a = v := by unfold getAttr; rw [hv]; rfl
    rw [(h1 a ha).1, hg]
    refine ⟨fun ht => ?_, fun e => by rw [e]; rfl, fun hf hne => ?_⟩
    · cases v with
      | none => exact absurd ht (by decide)
      | _ => simp only [rawValue, ht, if_true]
    · cases v with
      | none => exact absurd rfl hne
      | _ => simp only [rawValue, hf, Bool.false_eq_true, if_false]
  induction as generalizing target with
  | nil => exact ⟨target, rfl, ht, fun _ h => (nomatch h), fun _ _ _ _ => rfl⟩
  | cons a as ih =>
    obtain ⟨ha, hl, hp, hk⟩ := h a List.mem_cons_self
    obtain ⟨n1, e1, o1, k1, v1, c1, t1, s1⟩ := C88_create_partial d target ht a ha hl hp
      (fun hh => hk (mem_localNames.1 hh).2.1) hf (rawValue c (getAttr source a)) (getAttr source (a ++ "_comment__nxt".toList))
    have hna : a ∉ as := (List.nodup_cons.1 hn).1
    obtain ⟨n2, e2, o2, h2, k2⟩ := ih n1 o1 (List.nodup_cons.1 hn).2 (fun x hx => by
      obtain ⟨p1, p2, p3, p4⟩ := h x (List.mem_cons_of_mem _ hx)
      refine ⟨p1, p2, p3, ?_⟩
      have : look n1 x .value = look target x .value := k1 x .value p1 (fun e => hna (e ▸ hx))
      rw [look_value, look_value, get?_eq_none.2 p4] at this
      exact get?_eq_none.1 this)
    refine ⟨n2, ?_, o2, ?_, ?_⟩
    · unfold transfer
      rw [List.foldlM_cons]
      have : setData d target a true (attrData c source a) = some n1 := e1
      rw [this]
      exact e2
    · intro x hx
      rcases List.mem_cons.1 hx with hxa | hx
      · subst hxa
        rw [k2 x _ ha hna, k2 x _ ha hna, k2 x _ ha hna, k2 x _ ha hna]
        exact ⟨v1, c1, t1, s1⟩
      · obtain ⟨q1, q2, q3, q4⟩ := h2 x hx
        refine ⟨q1, q2, ?_, q4⟩
        rw [q3, k1 x .type (h x (List.mem_cons_of_mem _ hx)).1 (fun e => hna (e ▸ hx))]
    · intro x f hx hxn
      rw [k2 x f hx (fun hh => hxn (List.mem_cons_of_mem _ hh)), k1 x f hx (fun e => hxn (e ▸ List.mem_cons_self))]

/-- C89: the order in which the set gives the attributes does not matter. -/
theorem C89_order (c d : Ctx) (source target : Dict Str Val) (ht : Ok target) (hm : d.muted = false) (hf : 0 < d.fuel)
    (as bs : List Str) (hab : as.Perm bs) (hn : as.Nodup)
    (h : ∀ a ∈ as, AttrName a ∧ Legal d.cc a ∧ a ∉ d.prot ∧ a ∉ keys target) (hs : ∀ a ∈ as, a ∈ keys source) :
    ∃ n n', transfer c d source target as = some n ∧ transfer c d source target bs = some n' ∧ SameAttrs n n' := by
  obtain ⟨n, e, -, v, m, k⟩ := C89_copy c d source target ht hm hf as hn h
  obtain ⟨n', e', -, v', m', k'⟩ := C89_copy c d source target ht hm hf bs (hab.nodup_iff.1 hn) (fun a ha => h a (hab.mem_iff.2 ha))
  refine ⟨n, n', e, e', fun x f hx => ?_⟩
  by_cases hxa : x ∈ as
  · have hxb := hab.mem_iff.1 hxa
    obtain ⟨q, hq⟩ := Option.isSome_iff_exists.1 (get?_isSome.2 (hs x hxa))
    obtain ⟨a1, a2, a3⟩ := v x hxa q hq
    obtain ⟨b1, b2, b3⟩ := v' x hxb q hq
    obtain ⟨a4, a5, a6⟩ := m x hxa
    obtain ⟨b4, b5, b6⟩ := m' x hxb
    cases f
    · by_cases hqn : q = .none
      · rw [a2 hqn, b2 hqn]
      · cases hq' : q.truthy with
        | true => rw [a1 hq', b1 hq']
        | false => rw [a3 hq' hqn, b3 hq' hqn]
    · rw [a4, b4]
    · rw [a5, b5]
    · rw [a6, b6]
  · rw [k x f hx hxa, k' x f hx (fun hh => hxa (hab.mem_iff.2 hh))]

/-- C89 fails for false values: the number 0 arrives as the text "0", and `None` as a text. -/
theorem C89_false_violation :
    (transfer exAttrCtx exAttrCtx [("z".toList, .num 0), ("w".toList, .none)] [] ["z".toList, "w".toList]).map
      (fun n => ((match get? "z".toList n with | some (.str s) => some s | _ => none),
        (match get? "w".toList n with | some (.str s) => some s | _ => none))) = some (some "0".toList, some []) := by
  decide +kernel

/-- C89 fails for names which are not legal: what the target has depends on the order. -/
theorem C89_illegal_violation :
    (transfer exAttrCtx exAttrCtx [("b c".toList, .num 1), ("b_c".toList, .num 2)] [] ["b c".toList, "b_c".toList]).map
      (fun n => (shown n "b_c".toList, shown n "b_c2".toList)) = some (some "2".toList, none) ∧
    (transfer exAttrCtx exAttrCtx [("b c".toList, .num 1), ("b_c".toList, .num 2)] [] ["b_c".toList, "b c".toList]).map
      (fun n => (shown n "b_c".toList, shown n "b_c2".toList)) = some (some "2".toList, some "1".toList) := by
  decide +kernel

example : (transfer exAttrCtx exAttrCtx exAttrNode [] ["x".toList]).map (fun n =>
    (shown n "x".toList, shown n "x_comment__nxt".toList, shown n "x_type__nxt".toList, shown n "x_source__nxt".toList)) =
    some (some "1".toList, some "one".toList, none, some "/n".toList) := by decide +kernel
example : ∀ a ∈ ["x".toList], Legal exAttrCtx.cc a ∧ a ∉ exAttrCtx.prot := by
  intro a ha
  rw [List.mem_singleton.1 ha]
  exact ⟨⟨'x', [], rfl, by decide +kernel, by decide +kernel⟩, by decide +kernel⟩

end Nxt.Props
