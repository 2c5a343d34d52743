import Verif.Model.Targeted
import Verif.Spec.Inherit
/-!
# Specification for targeted composition
-/
namespace Nxt.Spec
open Dict NodeData Targeted

/-- The attributes a composition arc hands on. -/
def handsOn : Arc → List Str
  | .reference => ["_start_point", "_enabled", "_execute_in", "_instance", "_comment", "_code"].map String.toList
  | .inst => ["_enabled", "_comment", "_code"].map String.toList
  | .parent => []

/-- An attribute no base has an opinion on. -/
def noOpinion (a : Str) : Val := if a = "_code".toList then .list [] else .none

/-- The base gives its opinion on the attribute. -/
def Gives (E : Env) (a : Str) (b : Nat) : Prop :=
  (∃ x, E.arc b = some x ∧ a ∈ handsOn x) ∧ (getAttr (E.table b) a).hasOpinion = true

instance (E : Env) (a : Str) (b : Nat) : Decidable (Gives E a b) := by
  unfold Gives
  have : Decidable (∃ x, E.arc b = some x ∧ a ∈ handsOn x) :=
    match h : E.arc b with
    | none => .isFalse (by simp)
    | some x => if hx : a ∈ handsOn x then .isTrue ⟨x, rfl, hx⟩ else .isFalse (by rintro ⟨y, e, hy⟩; cases e; exact hx hy)
  infer_instance

/-- The opinion of the first of the bases which gives one. -/
def givenBy (E : Env) (a : Str) (bases : List Nat) : Option Val :=
  (bases.find? (fun b => Gives E a b)).map (fun b => getAttr (E.table b) a)

/-- The bases of a composite node: specs of layers of the stage, strong to weak, then other composite nodes. -/
structure Based (E : Env) (specs links : List Nat) : Prop where
  spec : ∀ b ∈ specs, E.isComp b = false ∧ E.proxy b = false ∧ E.arc b = some .reference
  layer : ∀ b ∈ specs, ∃ l, E.layer b = some l
  sorted : specs.Pairwise (fun a b => ∀ l m, E.layer a = some l → E.layer b = some m → l ≤ m)
  link : ∀ b ∈ links, E.isComp b = true ∧ E.arc b ≠ some .reference
  linkLayer : ∀ b ∈ links, E.proxy b = false → ∃ l, E.layer b = some l

/-- The base comes from a layer weaker than that index. -/
def Weaker (E : Env) (tgt : Nat) (b : Nat) : Prop := ∃ l, E.layer b = some l ∧ tgt < l

instance (E : Env) (tgt b : Nat) : Decidable (Weaker E tgt b) :=
  match h : E.layer b with
  | none => .isFalse (by rintro ⟨l, e, -⟩; rw [h] at e; cases e)
  | some l => if hl : tgt < l then .isTrue ⟨l, h, hl⟩ else .isFalse (by rintro ⟨m, e, hm⟩; rw [h] at e; cases e; exact hl hm)

/-- The name of a node as the layers hold it. -/
def nameText (ns : List Str) : Str := ns.getLast?.getD ['/']

end Nxt.Spec
