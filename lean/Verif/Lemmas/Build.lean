import Verif.Model.Build
import Verif.Lemmas.ProxyOrder
import Verif.Lemmas.NodeData
import Verif.Lemmas.Comp
import Verif.Spec.Files
import Verif.Spec.Inherit
/-!
# Lemmas about the three passes of a composition together
-/
namespace Nxt.Build
open Dict NodeData Spec Path

/-! ### What is read while proxies are made -/

theorem lite_childFold (p : Str) (l : List Str) : ∀ acc : BSt × List (Str × Str),
    (((l.foldl (childStep p) acc).1.lite, (l.foldl (childStep p) acc).2) : Proxies.St × List (Str × Str)) =
      l.foldl (Proxies.childStep p) (acc.1.lite, acc.2) := by
  induction l with
  | nil => intro acc; rfl
  | cons c l ih =>
    intro acc
    rw [List.foldl_cons, List.foldl_cons, ih]
    congr 1
    unfold childStep Proxies.childStep
    simp only
    cases get? (fromNamespace (toNamespace p ++ [(toNamespace c).getLast?.getD []])) acc.1.lite.nodes with
    | none => rfl
    | some n =>
      simp only
      split <;> rfl

theorem lite_discover (same : Str → Str → Bool) (kids : List Str → Str → List Str) (B : BSt) (p : Str) :
    (discover same kids B p).1.lite = (Proxies.discover same kids B.lite p).1 ∧
    (discover same kids B p).2 = (Proxies.discover same kids B.lite p).2 := by
  unfold discover Proxies.discover
  cases Proxies.possible B.lite p with
  | none => exact ⟨rfl, rfl⟩
  | some r =>
    simp only
    have key : ∀ (B0 : BSt) (S0 : Proxies.St), B0.lite = S0 →
        (((kids (keys B0.lite.nodes) r).foldl (childStep p) (B0, [])).1.lite =
          ((kids (keys S0.nodes) r).foldl (Proxies.childStep p) (S0, [])).1) ∧
        (((kids (keys B0.lite.nodes) r).foldl (childStep p) (B0, [])).2 =
          ((kids (keys S0.nodes) r).foldl (Proxies.childStep p) (S0, [])).2) := by
      rintro B0 _ rfl
      have := lite_childFold p (kids (keys B0.lite.nodes) r) (B0, [])
      exact ⟨congrArg Prod.fst this, congrArg Prod.snd this⟩
    apply key
    show BSt.lite (if r ∈ keys (Proxies.setInst B.lite p r).nodes then _ else _) = _
    split <;> rfl

theorem lite_discoverAll (same : Str → Str → Bool) (kids : List Str → Str → List Str) (B : BSt) :
    (discoverAll same kids B).1.lite = (Proxies.discoverAll same kids B.lite).1 ∧
    (discoverAll same kids B).2 = (Proxies.discoverAll same kids B.lite).2 := by
  unfold discoverAll Proxies.discoverAll
  have key : ∀ (l : List Str) (acc : BSt × List (Str × Str)) (acc' : Proxies.St × List (Str × Str)),
      acc.1.lite = acc'.1 → acc.2 = acc'.2 →
      (l.foldl (fun acc p => ((discover same kids acc.1 p).1, acc.2 ++ (discover same kids acc.1 p).2)) acc).1.lite =
        (l.foldl (fun acc p => ((Proxies.discover same kids acc.1 p).1, acc.2 ++ (Proxies.discover same kids acc.1 p).2)) acc').1 ∧
      (l.foldl (fun acc p => ((discover same kids acc.1 p).1, acc.2 ++ (discover same kids acc.1 p).2)) acc).2 =
        (l.foldl (fun acc p => ((Proxies.discover same kids acc.1 p).1, acc.2 ++ (Proxies.discover same kids acc.1 p).2)) acc').2 := by
    intro l
    induction l with
    | nil => intro acc acc' h1 h2; exact ⟨h1, h2⟩
    | cons p l ih =>
      intro acc acc' h1 h2
      rw [List.foldl_cons, List.foldl_cons]
      have := lite_discover same kids acc.1 p
      rw [h1] at this
      exact ih _ _ this.1 (by simp only [h2, this.2])
  exact key _ _ _ rfl rfl

theorem lite_standIn (B : BSt) (src : Str) : (standIn B src).lite = Proxies.standIn B.lite src := by
  unfold standIn Proxies.standIn
  split
  · rfl
  · cases get? (parentPath src) B.lite.nodes with
    | none => rfl
    | some n =>
      simp only
      split <;> rfl

theorem lite_addProxy (real : Option Str) (B : BSt) (tgt src : Str) (forced : Bool) :
    (addProxy real B tgt src forced).lite = Proxies.addProxy B.lite tgt src := by
  unfold addProxy Proxies.addProxy
  simp only
  split <;> rfl

theorem lite_create (same : Str → Str → Bool) (real : Option Str) (acc : BSt × List Str) (st : Str × Str) :
    (create same real acc st).1.lite = (Proxies.create same (acc.1.lite, acc.2) st).1 ∧
    (create same real acc st).2 = (Proxies.create same (acc.1.lite, acc.2) st).2 := by
  refine ⟨?_, rfl⟩
  unfold create Proxies.create
  simp only
  have : ∀ (a : BSt) (b : Proxies.St), a.lite = b → (BSt.lite { a with lite := { a.lite with dirty := Dirty.extend same a.lite.dirty st.1 st.2 } }) =
      { b with dirty := Dirty.extend same b.dirty st.1 st.2 } := by rintro a _ rfl; rfl
  apply this
  rw [lite_standIn]
  split
  · exact congrArg (fun S => Proxies.setInst S st.2 st.1) (lite_standIn _ _)
  · rw [lite_addProxy, lite_standIn]

theorem lite_createFold (same : Str → Str → Bool) (real : Option Str) (l : List (Str × Str)) : ∀ acc : BSt × List Str,
    (l.foldl (create same real) acc).1.lite = (l.foldl (Proxies.create same) (acc.1.lite, acc.2)).1 ∧
    (l.foldl (create same real) acc).2 = (l.foldl (Proxies.create same) (acc.1.lite, acc.2)).2 := by
  induction l with
  | nil => intro acc; exact ⟨rfl, rfl⟩
  | cons st l ih =>
    intro acc
    rw [List.foldl_cons, List.foldl_cons]
    have := ih (create same real acc st)
    rw [(lite_create same real acc st).1, (lite_create same real acc st).2] at this
    exact this

/-- An `Option` of a pair of which only the readable part counts. -/
def liteOf (r : Option (BSt × List Str)) : Option (Proxies.St × List Str) := r.map (fun r => (r.1.lite, r.2))

theorem lite_proxyLoop (same : Str → Str → Bool) (kids : List Str → Str → List Str) (real : Option Str) : ∀ fuel (acc : BSt × List Str),
    liteOf (proxyLoop same kids real fuel acc) = Proxies.proxyLoop same kids fuel (acc.1.lite, acc.2) := by
  intro fuel
  induction fuel with
  | zero => intro acc; rfl
  | succ fuel ih =>
    intro acc
    rw [proxyLoop, Proxies.proxyLoop]
    obtain ⟨h1, h2⟩ := lite_discoverAll same kids acc.1
    simp only
    rw [h2]
    split
    · unfold liteOf; simp only [Option.map_some, h1]
    · rw [ih, (lite_createFold same real _ _).1, (lite_createFold same real _ _).2]
      simp only [h1]

theorem lite_eraseFold (imp : List Str) : ∀ B : BSt,
    (imp.foldl (fun B p => (⟨{ B.lite with nodes := erase p B.lite.nodes }, erase p B.tab⟩ : BSt)) B).lite =
      imp.foldl (fun S p => { S with nodes := erase p S.nodes }) B.lite := by
  induction imp with
  | nil => intro B; rfl
  | cons p imp ih => intro B; rw [List.foldl_cons, List.foldl_cons, ih]

/-- What is read while proxies are made is as in the model of that pass alone. -/
theorem lite_compProxies (same : Str → Str → Bool) (kids : List Str → Str → List Str) (real : Option Str) (fuel : Nat) (B : BSt) :
    (compProxies same kids real fuel B).map BSt.lite = Proxies.compProxies same kids fuel B.lite := by
  unfold compProxies Proxies.compProxies
  rw [← lite_proxyLoop same kids real fuel (B, [])]
  unfold liteOf
  cases proxyLoop same kids real fuel (B, []) with
  | none => rfl
  | some r => simp only [Option.map_some, lite_eraseFold]

end Nxt.Build
