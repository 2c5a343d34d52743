import Verif.Model.Logging
/-!
# Specification: what is logged where
-/
namespace Nxt.Spec
open Logging

/-- How often a record of level `l` should be shown at a verbosity: not at all at 0 or below, from 18
(EXECINFO) on at 1, from 10 (DEBUG) on above that; never more than once. -/
def Due (n : Int) (l : Nat) : Nat :=
  if n ≤ 0 then 0 else if n = 1 then (if 18 ≤ l then 1 else 0) else if 10 ≤ l then 1 else 0

/-- The verbosities asked for, in order. -/
def askedFor (rs : List Req) : List Int :=
  rs.filterMap (fun r => match r with | .verbosity (.num n) => some n | _ => none)

/-- How often the socket was asked for. -/
def socketsAsked (rs : List Req) : Nat :=
  (rs.filter (fun r => match r with | .verbosity .socket => true | _ => false)).length

/-- The file names made by the requests. -/
def madeNames (rs : List Req) : List Str :=
  rs.filterMap (fun r => match r with | .make n => some n | _ => none)

/-- The log was made, and not stopped since. -/
def OpenLog (rs : List Req) (n : Str) : Prop :=
  ∃ before after, rs = before ++ .make n :: after ∧ .stop n ∉ after

/-- The handlers of a file: how many there are, and whether the newest is among them.  A stop takes away the
newest only. -/
def tally (n : Str) : List Req → Nat × Bool
  | [] => (0, false)
  | r :: earlier =>
    let t := tally n earlier
    match r with
    | .make m => if m = n then (t.1 + 1, true) else t
    | .stop m => if m = n ∧ t.2 then (t.1 - 1, false) else t
    | .verbosity _ => t

end Nxt.Spec
