import Verif.Model.Py
/-!
# Python dictionaries

A `dict` (or `OrderedDict`) is a list of key/value pairs in insertion order with distinct keys
(`Dict.Ok`).  All operations keep that invariant (proved in `Verif/Lemmas/Dict.lean`).
-/
namespace Nxt

/-- A Python `dict` with keys in insertion order. -/
abbrev Dict (K V : Type) := List (K × V)

namespace Dict
variable {K V : Type} [DecidableEq K]

/-- `d.get(k)`; `none` when the key is missing. -/
def get? (k : K) : Dict K V → Option V
  | [] => none
  | (a, v) :: d => if a = k then some v else get? k d

omit [DecidableEq K] in
/-- `list(d.keys())`. -/
def keys (d : Dict K V) : List K := d.map Prod.fst

/-- `d[k] = v`: an existing key keeps its position. -/
def set (k : K) (v : V) : Dict K V → Dict K V
  | [] => [(k, v)]
  | (a, w) :: d => if a = k then (a, v) :: d else (a, w) :: set k v d

/-- `d.pop(k, None)`. -/
def erase (k : K) : Dict K V → Dict K V
  | [] => []
  | (a, w) :: d => if a = k then d else (a, w) :: erase k d

/-- `d.update(e)`. -/
def update (d e : Dict K V) : Dict K V := e.foldl (fun d kv => set kv.1 kv.2 d) d

omit [DecidableEq K] in
/-- Distinct keys. -/
def Ok (d : Dict K V) : Prop := (keys d).Nodup

instance (d : Dict K V) : Decidable (Ok d) := inferInstanceAs (Decidable (keys d).Nodup)

/-- A total order on strings: Python compares code points from the left. -/
def strLe : Str → Str → Bool
  | [], _ => true
  | _ :: _, [] => false
  | c :: cs, d :: ds => if c.toNat < d.toNat then true else if d.toNat < c.toNat then false else strLe cs ds

/-- `sorted(d.items(), key=lambda x: x[0])` / the loop over `sorted(d.keys())`. -/
def sortByKey (d : Dict Str V) : Dict Str V := d.mergeSort (fun a b => strLe a.1 b.1)

end Dict
end Nxt
