import Verif.Spec.Legacy
/-!
# Specification of whole conversions
-/
namespace Nxt.Spec
open Dict Legacy

/-- The paths of the references of a 1.9 file, the ones without a path left out. -/
def oldPaths : List Val → List Str
  | [] => []
  | .dict r :: l => match get? "path".toList r with
    | some (.str p) => if p = [] then oldPaths l else p :: oldPaths l
    | _ => oldPaths l
  | _ :: l => oldPaths l

/-- The entry at a key of a dict. -/
def inside (v : Option Val) (k : Str) : Option Val :=
  match v with
  | some (.dict e) => get? k e
  | _ => none

/-- What a reference of a 1.9 file says under a key, if it is one with the path `p`. -/
def saidBy (k p : Str) (r : Val) : Option Val :=
  match inside (some r) "path".toList with
  | some (.str q) => if q = p then inside (some r) k else none
  | _ => none

/-- What the references of a 1.9 file with the path `p` say last under a key, `None` left out. -/
def lastSaid (k p : Str) (refs : List Val) : Option Val := ((refs.filterMap (saidBy k p)).filter notNone).getLast?

/-- The entry `old` of `m` has become the entry `new` of `m'`, if it holds anything. -/
def EntryMoved (old new : Str) (m m' : Dict Str Val) : Prop :=
  (∀ v, get? old m = some v → v.truthy = true → SameOpt (get? new m') (some v) ∧ get? old m' = none) ∧
  ((∀ v, get? old m = some v → v.truthy = false) →
    SameOpt (get? new m') (get? new m) ∧ SameOpt (get? old m') (get? old m))

/-- `r` is `data`, read and saved as version 1.16: every entry is the same JSON value, but for `mute` and
`solo` which are left out when false, for the nodes without a slash, and for what a node does not know. -/
structure SameFile (data r : Dict Str Val) : Prop where
  version : get? "version".toList r = some (.str "1.16".toList)
  entries : ∀ k, k ∉ ["version".toList, "nodes".toList, "mute".toList, "solo".toList] →
    SameOpt (get? k r) (get? k data)
  flags : ∀ k, k ∈ ["mute".toList, "solo".toList] →
    (get? k data = some (.bool false) → get? k r = none) ∧
    (get? k data ≠ some (.bool false) → SameOpt (get? k r) (get? k data))
  noNodes : get? "nodes".toList data = none → get? "nodes".toList r = none
  nodes : ∀ ns, get? "nodes".toList data = some (.dict ns) → ∃ ns', get? "nodes".toList r = some (.dict ns') ∧
    (∀ p, get? p ns' = none ↔ ('/' ∈ p → get? p ns = none)) ∧
    ∀ p nd, '/' ∈ p → get? p ns = some (.dict nd) → ∃ nd', get? p ns' = some (.dict nd') ∧
      ∀ k, SameOpt (get? k nd') (if k ∈ nodeEntries115 then get? k nd else none)

/-- The tables in the meta data of files up to 1.9. -/
def metaTables109 : List Str :=
  ["positions", "collapse", "aliases", "colors", "position_data", "collapse_data"].map String.toList

/-- The shape of a file up to 1.9 the converters rely on. -/
structure Shape109 (data : Dict Str Val) : Prop where
  wf : wf (.dict data)
  nodes : ∀ v, get? "nodes".toList data = some v → ∃ d, v = .dict d ∧
    ∀ p n, get? p d = some n → ∃ nd, n = .dict nd ∧ ∀ a, get? "attrs".toList nd = some a → DictOfDicts a
  metaData : ∀ v, get? "meta_data".toList data = some v → ∃ d, v = .dict d ∧
    ∀ k ∈ metaTables109, ∀ t, get? k d = some t → ∃ e, t = .dict e
  overs : ∀ v, get? "comp_overrides".toList data = some v → DictOfDicts v
  refs : ∀ v, get? "references".toList data = some v → ∃ l, v = .list l ∧
    ∀ r ∈ l, ∃ e, r = .dict e ∧ ∀ p, get? "path".toList e = some p → p = .none ∨ ∃ s, p = .str s

/-- What a table of the meta data has at a path. -/
def labelAt (data : Dict Str Val) (table p : Str) : Option Val := inside (inside (get? "meta_data".toList data) table) p

/-- `r` is `data`, a file up to 1.9, read and saved as version 1.16: references are texts, what they said of their
layers is in the meta data and the overrides, positions and collapse states have new names; nodes have what nodes know,
and the rest is the same JSON values, but for `mute` and `solo`, which are left out when false. -/
structure OldFile (data r : Dict Str Val) : Prop where
  version : get? "version".toList r = some (.str "1.16".toList)
  entries : ∀ k, k ∉ ["version", "nodes", "mute", "solo", "references", "comp_overrides", "meta_data"].map String.toList →
    SameOpt (get? k r) (get? k data)
  flags : ∀ k, k ∈ ["mute".toList, "solo".toList] → (get? k data = some (.bool false) → get? k r = none) ∧
    (get? k data ≠ some (.bool false) → SameOpt (get? k r) (get? k data))
  noRefs : get? "references".toList data = none → get? "references".toList r = none
  refs : ∀ refs, get? "references".toList data = some (.list refs) → refs ≠ [] →
    SameOpt (get? "references".toList r) (if oldPaths refs = [] then none else some (.list ((oldPaths refs).map Val.str)))
  labels : ∀ refs, get? "references".toList data = some (.list refs) → oldPaths refs ≠ [] → ∀ p, p ≠ [] →
    SameOpt (labelAt r "aliases".toList p) ((lastSaid "alias".toList p refs).or (labelAt data "aliases".toList p)) ∧
    SameOpt (labelAt r "colors".toList p) ((lastSaid "color".toList p refs).or (labelAt data "colors".toList p)) ∧
    ∀ k, SameOpt (inside (inside (get? "comp_overrides".toList r) p) k)
      ((if k = "mute".toList then lastSaid "mute".toList p refs else if k = "solo".toList then lastSaid "solo".toList p refs
        else none).or (inside (inside (get? "comp_overrides".toList data) p) k))
  noLabels : (∀ refs, get? "references".toList data = some (.list refs) → oldPaths refs = []) →
    SameOpt (get? "comp_overrides".toList r) (get? "comp_overrides".toList data) ∧
    ∀ p, SameOpt (labelAt r "aliases".toList p) (labelAt data "aliases".toList p) ∧
      SameOpt (labelAt r "colors".toList p) (labelAt data "colors".toList p)
  metaData : ∀ m, get? "meta_data".toList data = some (.dict m) → ∃ m', get? "meta_data".toList r = some (.dict m') ∧
    EntryMoved "position_data".toList "positions".toList m m' ∧ EntryMoved "collapse_data".toList "collapse".toList m m' ∧
    ∀ k, k ∉ ["aliases", "colors", "position_data", "positions", "collapse_data", "collapse"].map String.toList →
      SameOpt (get? k m') (get? k m)
  noNodes : get? "nodes".toList data = none → get? "nodes".toList r = none
  nodes : ∀ ns, get? "nodes".toList data = some (.dict ns) → ∃ ns', get? "nodes".toList r = some (.dict ns') ∧
    (∀ p, get? p ns' = none ↔ ('/' ∈ p → get? p ns = none)) ∧
    ∀ p nd, '/' ∈ p → get? p ns = some (.dict nd) → ∃ nd', get? p ns' = some (.dict nd') ∧
      ∀ k, SameOpt (get? k nd') (if k ∈ nodeEntries115 then get? k nd else none)

end Nxt.Spec
