import Verif.Spec.BuildLayers
import Verif.Props.Build
import Verif.Props.Layer
/-!
# Property C144: the layers a build takes
-/
namespace Nxt.Props
open Dict NodeData Mro Spec Path BuildLayers

namespace Taking

theorem takeLayers_spec (fromIdx : Nat) (p0 c0 : Dict Str Val) (xs : List BLayer) (N : Nat) (hN : xs.length ≤ N)
    (hok : ∀ l ∈ xs, Dict.Ok l.positions ∧ Dict.Ok l.collapse) :
    let t := xs.reverse.foldl (takeLayer fromIdx) (p0, c0, [], N)
    (∀ p, get? p t.1 = (firstEntry (xs.map (·.positions)) p).or (get? p p0)) ∧
    (∀ p, get? p t.2.1 = (firstEntry (xs.map (·.collapse)) p).or (get? p c0)) ∧
    t.2.2.1 = xs.drop (fromIdx - (N - xs.length)) ∧ t.2.2.2 = N - xs.length := by
  induction xs with
  | nil => exact ⟨fun p => rfl, fun p => rfl, by simp, rfl⟩
  | cons x xs ih =>
    rw [List.length_cons] at hN
    obtain ⟨h1, h2, h3, h4⟩ := ih (by omega) (fun l hl => hok l (List.mem_cons_of_mem _ hl))
    simp only [List.reverse_cons, List.foldl_append, List.foldl_cons, List.foldl_nil] at h1 h2 h3 h4 ⊢
    generalize xs.reverse.foldl (takeLayer fromIdx) (p0, c0, [], N) = t at h1 h2 h3 h4
    obtain ⟨ho1, ho2⟩ := hok x List.mem_cons_self
    unfold takeLayer
    refine ⟨fun p => ?_, fun p => ?_, ?_, ?_⟩
    · simp only
      rw [get?_update ho1, h1]
      unfold firstEntry
      rw [List.map_cons, List.findSome?_cons]
      cases get? p x.positions <;> rfl
    · simp only
      rw [get?_update ho2, h2]
      unfold firstEntry
      rw [List.map_cons, List.findSome?_cons]
      cases get? p x.collapse <;> rfl
    · simp only [List.length_cons]
      rw [h3, h4]
      split
      · rw [show fromIdx - (N - xs.length) = 0 by omega, show fromIdx - (N - (xs.length + 1)) = 0 by omega]
        rfl
      · rw [show fromIdx - (N - (xs.length + 1)) = (fromIdx - (N - xs.length)) + 1 by omega, List.drop_succ_cons]
    · simp only [List.length_cons]
      omega

theorem active_eq (fromIdx : Nat) (layers : List BLayer) :
    Layer.activeLayers BLayer.muted BLayer.soloed (layers.drop fromIdx) = contributing fromIdx layers := C22_active _ _ _

end Taking

/-- C144: a build from a place on composes the contributing layers from there, strong to weak, and takes the working
directory and the path of the strongest of them; without contributing layers it composes nothing.  Positions and collapse
states are those of the strongest layer of the whole stage which has them. -/
theorem C144_taken (same : Str → Str → Bool) (kids : List Str → Str → List Str) (fuel fromIdx : Nat) (layers : List BLayer)
    (hne : layers ≠ []) (hok : ∀ l ∈ layers, Dict.Ok l.positions ∧ Dict.Ok l.collapse) :
    ∃ c, buildStage same kids fuel fromIdx [] layers = .ok c ∧
      (∀ p, get? p c.positions = firstEntry (layers.map (·.positions)) p) ∧
      (∀ p, get? p c.collapse = firstEntry (layers.map (·.collapse)) p) ∧
      c.cwd = (contributing fromIdx layers).head?.map (·.cwd) ∧
      c.realPath = (contributing fromIdx layers).head?.bind (·.realPath) ∧
      (contributing fromIdx layers = [] → c.outcome = .nothing) ∧
      ∀ a as, contributing fromIdx layers = a :: as →
        c.outcome = .composed (Build.compose same kids a.realPath fuel ((a :: as).map (·.nodes))) := by
  cases layers with
  | nil => exact absurd rfl hne
  | cons top rest =>
    obtain ⟨h1, h2, h3, -⟩ := Taking.takeLayers_spec fromIdx [] top.collapse (top :: rest) (top :: rest).length (Nat.le_refl _) hok
    have h3' : (takeLayers fromIdx top (top :: rest)).2.2.1 = (top :: rest).drop fromIdx := by
      unfold takeLayers
      rw [h3, Nat.sub_self, Nat.sub_zero]
    have hc : ∀ p, (firstEntry ((top :: rest).map (·.collapse)) p).or (get? p top.collapse) =
        firstEntry ((top :: rest).map (·.collapse)) p := by
      intro p
      unfold firstEntry
      rw [List.map_cons, List.findSome?_cons]
      cases get? p top.collapse <;> simp
    have hp : ∀ p, get? p (takeLayers fromIdx top (top :: rest)).1 = firstEntry ((top :: rest).map (·.positions)) p := by
      intro p
      rw [show (takeLayers fromIdx top (top :: rest)).1 = _ from rfl]
      unfold takeLayers
      rw [h1]
      simp [get?]
    have hco : ∀ p, get? p (takeLayers fromIdx top (top :: rest)).2.1 = firstEntry ((top :: rest).map (·.collapse)) p := by
      intro p
      unfold takeLayers
      rw [h2, hc]
    have hact := Taking.active_eq fromIdx (top :: rest)
    rw [← h3'] at hact
    unfold buildStage
    rw [if_neg (by simp)]
    simp only
    cases hcs : contributing fromIdx (top :: rest) with
    | nil =>
      rw [hcs] at hact
      rw [hact]
      exact ⟨_, rfl, hp, hco, rfl, rfl, fun _ => rfl, (fun _ _ h => nomatch h)⟩
    | cons a as =>
      rw [hcs] at hact
      rw [hact]
      refine ⟨_, rfl, hp, hco, rfl, rfl, (fun h => nomatch h), fun b bs hb => ?_⟩
      cases hb
      rfl

/-- C144: with no layer soloed, muting layers composes the same nodes as a stage without them, with the same working
directory and path.  Missing: the positions and collapse states (`C144_muted_violation`). -/
theorem C144_mute_partial (same : Str → Str → Bool) (kids : List Str → Str → List Str) (fuel : Nat) (layers : List BLayer)
    (hok : ∀ l ∈ layers, Dict.Ok l.positions ∧ Dict.Ok l.collapse) (hsolo : ∀ l ∈ layers, l.soloed = false)
    (hsome : ∃ l ∈ layers, l.muted = false) :
    ∃ c d, buildStage same kids fuel 0 [] layers = .ok c ∧ buildStage same kids fuel 0 [] (layers.filter (fun l => !l.muted)) = .ok d ∧
      c.outcome = d.outcome ∧ c.cwd = d.cwd ∧ c.realPath = d.realPath ∧ c.outcome ≠ .nothing := by
  obtain ⟨l0, hl0, hm0⟩ := hsome
  have hmem : l0 ∈ layers.filter (fun l => !l.muted) := List.mem_filter.2 ⟨hl0, by simp [hm0]⟩
  obtain ⟨c, h1, -, -, h2, h3, -, h5⟩ := C144_taken same kids fuel 0 layers (List.ne_nil_of_mem hl0) hok
  obtain ⟨d, k1, -, -, k2, k3, -, k5⟩ := C144_taken same kids fuel 0 (layers.filter (fun l => !l.muted)) (List.ne_nil_of_mem hmem)
    (fun l hl => hok l (List.mem_filter.1 hl).1)
  have key : ∀ ls : List BLayer, (∀ l ∈ ls, l.soloed = false) → contributing 0 ls = ls.filter (fun l => !l.muted) := by
    intro ls hs
    unfold contributing
    rw [List.drop_zero]
    have : ls.any (·.soloed) = false := by simpa [List.any_eq_false] using hs
    rw [this]
    simp
  have e1 := key layers hsolo
  have e2 := key (layers.filter (fun l => !l.muted)) (fun l hl => hsolo l (List.mem_filter.1 hl).1)
  rw [List.filter_filter] at e2
  simp only [Bool.and_self] at e2
  refine ⟨c, d, h1, k1, ?_, by rw [h2, k2, e1, e2], by rw [h3, k3, e1, e2], ?_⟩
  · cases hf : layers.filter (fun l => !l.muted) with
    | nil => rw [hf] at hmem; cases hmem
    | cons a as => rw [h5 a as (e1.trans hf), k5 a as (e2.trans hf)]
  · cases hf : layers.filter (fun l => !l.muted) with
    | nil => rw [hf] at hmem; cases hmem
    | cons a as => rw [h5 a as (e1.trans hf)]; exact fun h => nomatch h

/-- C144: the positions and collapse states of the strongest layer are those of every composition, even if it is muted or
not among the layers the composition is from. -/
theorem C144_muted_violation (same : Str → Str → Bool) (kids : List Str → Str → List Str) (fuel fromIdx : Nat) (top : BLayer)
    (rest : List BLayer) (hok : ∀ l ∈ top :: rest, Dict.Ok l.positions ∧ Dict.Ok l.collapse) :
    ∃ c, buildStage same kids fuel fromIdx [] (top :: rest) = .ok c ∧
      (∀ p v, get? p top.positions = some v → get? p c.positions = some v) ∧
      (∀ p v, get? p top.collapse = some v → get? p c.collapse = some v) := by
  obtain ⟨c, h1, h2, h3, -⟩ := C144_taken same kids fuel fromIdx (top :: rest) (by simp) hok
  refine ⟨c, h1, fun p v hv => ?_, fun p v hv => ?_⟩
  · rw [h2]
    unfold firstEntry
    rw [List.map_cons, List.findSome?_cons, hv]
  · rw [h3]
    unfold firstEntry
    rw [List.map_cons, List.findSome?_cons, hv]

/-- C144: only the world may be asked for, and a stage without layers is an error. -/
theorem C144_refused (same : Str → Str → Bool) (kids : List Str → Str → List Str) (fuel fromIdx : Nat) (paths : List Str)
    (layers : List BLayer) :
    (buildStage same kids fuel fromIdx paths layers = .notImplemented ↔ paths ≠ [] ∧ paths ≠ [['/']]) ∧
    (buildStage same kids fuel fromIdx paths layers = .noLayers ↔ (paths = [] ∨ paths = [['/']]) ∧ layers = []) := by
  have hw : [['/']] = [Path.WORLD] := rfl
  unfold buildStage
  by_cases h : paths ≠ [] ∧ paths ≠ [Path.WORLD]
  · rw [if_pos h, hw]
    refine ⟨⟨fun _ => h, fun _ => rfl⟩, (fun h' => nomatch h'), ?_⟩
    rintro ⟨h1 | h1, -⟩
    · exact absurd h1 h.1
    · exact absurd h1 h.2
  · rw [if_neg h, hw]
    have h' : paths = [] ∨ paths = [Path.WORLD] := by
      by_cases h0 : paths = []
      · exact .inl h0
      · exact .inr (Classical.byContradiction (fun h1 => h ⟨h0, h1⟩))
    cases layers with
    | nil => exact ⟨⟨(fun h' => nomatch h'), fun h1 => absurd h1 h⟩, fun _ => ⟨h', rfl⟩, fun _ => rfl⟩
    | cons top rest =>
      refine ⟨⟨fun h1 => ?_, fun h1 => absurd h1 h⟩, fun h1 => ?_, fun h1 => nomatch h1.2⟩
      · simp only at h1
        split at h1 <;> cases h1
      · simp only at h1
        split at h1 <;> cases h1

namespace Taking

variable {L : List Comp.LayerNodes}

theorem worldOnly_sub {l : Comp.LayerNodes} {e : Str × Dict Str Val} (h : e ∈ worldOnly l) : e ∈ l ∧ e.1 = ['/'] := by
  obtain ⟨h1, h2⟩ := List.mem_filter.1 h
  exact ⟨h1, by simpa using h2⟩

theorem get?_worldOnly (p : Str) : ∀ l : Comp.LayerNodes, get? p (worldOnly l) = if p = ['/'] then get? p l else none := by
  intro l
  induction l with
  | nil => unfold worldOnly; simp [get?]
  | cons e l ih =>
    obtain ⟨k, v⟩ := e
    unfold worldOnly at ih ⊢
    by_cases hk : k = ['/']
    · rw [List.filter_cons_of_pos (by simpa using hk)]
      simp only [get?]
      by_cases hp : k = p
      · rw [if_pos hp, if_pos hp, if_pos (hp ▸ hk)]
      · rw [if_neg hp, if_neg hp, ih]
    · rw [List.filter_cons_of_neg (by simpa using hk), ih]
      by_cases hp : p = ['/']
      · rw [if_pos hp, if_pos hp]
        simp only [get?]
        rw [if_neg (fun h => hk (h.trans hp))]
      · rw [if_neg hp, if_neg hp]

theorem stack_worldOnly (p : Str) : stack (L.map worldOnly) p = if p = ['/'] then stack L p else [] := by
  unfold stack
  rw [List.filterMap_map]
  by_cases hp : p = ['/']
  · rw [if_pos hp]
    congr 1
    funext l
    simp [get?_worldOnly, hp]
  · rw [if_neg hp, List.filterMap_eq_nil_iff]
    intro l _
    simp [get?_worldOnly, hp]

theorem worldOnly_spec (h : SpecNodes L) : SpecNodes (L.map worldOnly) where
  ok := by
    intro l hl
    obtain ⟨l', h1, rfl⟩ := List.mem_map.1 hl
    exact List.Nodup.sublist (List.Sublist.map _ List.filter_sublist) (h.ok l' h1)
  path := by
    intro l hl p n hm
    obtain ⟨l', h1, rfl⟩ := List.mem_map.1 hl
    exact h.path l' h1 p n (worldOnly_sub hm).1
  parent := by
    intro l hl ns n hN hm
    obtain ⟨l', h1, rfl⟩ := List.mem_map.1 hl
    exact h.parent l' h1 ns n hN (worldOnly_sub hm).1
  keys := by
    intro l hl p n hm
    obtain ⟨l', h1, rfl⟩ := List.mem_map.1 hl
    exact h.keys l' h1 p n (worldOnly_sub hm).1

theorem worldOnly_named (h : Named L) : Named (L.map worldOnly) := by
  intro l hl p n hm
  obtain ⟨l', h1, rfl⟩ := List.mem_map.1 hl
  exact h l' h1 p n (worldOnly_sub hm).1

theorem worldOnly_path (ns : List Str) : instPathOf (L.map worldOnly) ns = if render ns = ['/'] then instPathOf L ns else none := by
  unfold instPathOf
  rw [stack_worldOnly]
  by_cases h : render ns = ['/']
  · rw [if_pos h, if_pos h]
  · rw [if_neg h, if_neg h]
    rfl

theorem no_inst_world (hw : ∀ i, instPathOf L [] = some (some i) → i = []) (r : List Str) : ¬ InstOf (instPathOf L) [] r := by
  rintro ⟨-, i, h1, h2⟩
  rw [hw i h1] at h2
  exact not_pointsTo_nil h2

theorem worldOnly_inst (hw : ∀ i, instPathOf L [] = some (some i) → i = []) (p r : List Str) :
    ¬ InstOf (instPathOf (L.map worldOnly)) p r := by
  rintro ⟨hN, i, h1, h2⟩
  rw [worldOnly_path] at h1
  split at h1
  · rename_i hr
    have := (render_eq_world hN).1 hr
    subst this
    exact no_inst_world hw r ⟨hN, i, h1, h2⟩
  · cases h1

theorem worldOnly_separate (hw : ∀ i, instPathOf L [] = some (some i) → i = []) : Separate (instPathOf (L.map worldOnly)) where
  apart := fun p r _ _ h _ => absurd h (worldOnly_inst hw p r)
  own := fun p r _ _ h _ _ _ => absurd h (worldOnly_inst hw p r)
  means := by
    intro p i hN h
    rw [worldOnly_path] at h
    split at h
    · rename_i hr
      have := (render_eq_world hN).1 hr
      subst this
      exact .inl (hw i h)
    · cases h

theorem not_drawn_world (hw : ∀ i, instPathOf L [] = some (some i) → i = []) : ¬ ∃ s, Drawn L [] s := by
  rintro ⟨s, q, r, t, h1, -, h2, -⟩
  obtain ⟨rfl, -⟩ := List.append_eq_nil_iff.1 h1.symm
  exact no_inst_world hw r h2

theorem not_under_world (hw : ∀ i, instPathOf L [] = some (some i) → i = []) : ¬ ∃ s, Under L [] s := by
  rintro ⟨s, m, h1, h2, -⟩
  rw [List.prefix_nil] at h1
  exact not_drawn_world hw ⟨s, h1 ▸ h2⟩

end Taking

/-- C144: a build of the world only, from the same layers, has the world node alone, and its attributes, enabled state,
comment and code are those it has in the whole composition. -/
theorem C144_world (L : List Comp.LayerNodes) (h : SpecNodes L) (hn : Named L)
    (hw : ∀ i, instPathOf L [] = some (some i) → i = []) (C : Separate (instPathOf L))
    (same : Str → Str → Bool) (kids : List Str → Str → List Str) (hk : GivesKids kids) (real : Option Str) :
    ∃ n, ∀ fuel ≥ n, ∃ g nodes g' nodes', Build.compose same kids real fuel L = some (g, nodes) ∧
      Build.compose same kids real fuel (L.map worldOnly) = some (g', nodes') ∧
      (∀ ns, Names ns → ((get? (render ns) nodes').isSome ↔ ns = [] ∧ (get? ['/'] nodes).isSome)) ∧
      ∀ c c', get? ['/'] nodes = some c → get? ['/'] nodes' = some c' →
        (∀ k b, UserName b k → g'.attr? c' k = g.attr? c k) ∧
        ∀ a ∈ ["_enabled".toList, "_comment".toList, "_code".toList],
          g'.attr c' a = g.attr c a ∨ ((g'.attr c' a).hasOpinion = false ∧ (g.attr c a).hasOpinion = false) := by
  have hr : render [] = ['/'] := rfl
  have hw' : ∀ i, instPathOf (L.map worldOnly) [] = some (some i) → i = [] := by
    intro i hi
    rw [Taking.worldOnly_path, if_pos hr] at hi
    exact hw i hi
  obtain ⟨n1, h1⟩ := C143_composed L h hn hw C same kids hk real
  obtain ⟨n2, h2⟩ := C143_composed (L.map worldOnly) (Taking.worldOnly_spec h) (Taking.worldOnly_named hn) hw'
    (Taking.worldOnly_separate hw) same kids hk real
  refine ⟨max n1 n2, fun fuel hf => ?_⟩
  obtain ⟨g, nodes, a1, a2, a3, -, a5⟩ := h1 fuel (by omega)
  obtain ⟨g', nodes', b1, b2, b3, -, b5⟩ := h2 fuel (by omega)
  have hno := Taking.not_drawn_world hw
  have hno' := Taking.not_drawn_world hw'
  have hst : stack (L.map worldOnly) (render []) = stack L (render []) := by rw [Taking.stack_worldOnly, if_pos hr]
  refine ⟨g, nodes, g', nodes', a1, b1, fun ns hN => ?_, fun c c' hc hc' => ⟨fun k b hk => ?_, fun a ha => ?_⟩⟩
  · rw [b2 ns hN, show ['/'] = render [] from rfl, a2 [] names_nil]
    constructor
    · rintro (h1 | ⟨s, q, r, t, -, -, h2, -⟩)
      · rw [Taking.stack_worldOnly] at h1
        split at h1
        · rename_i hr
          have := (render_eq_world hN).1 hr
          subst this
          exact ⟨rfl, .inl h1⟩
        · exact absurd rfl h1
      · exact absurd h2 (Taking.worldOnly_inst hw q r)
    · rintro ⟨rfl, h1 | h1⟩
      · exact .inl (by rw [hst]; exact h1)
      · exact absurd h1 hno
  · rw [b3 [] c' k b names_nil hc' hk (Taking.not_under_world hw'), a3 [] c k b names_nil hc hk (Taking.not_under_world hw)]
    unfold layered lineage
    have hst' : stack (L.map worldOnly) ['/'] = stack L ['/'] := hst
    simp [lineageRev, render, hst']
  · obtain ⟨p1, -, p3⟩ := a5 [] c a names_nil hc ha
    obtain ⟨q1, -, q3⟩ := b5 [] c' a names_nil hc' ha
    have hs : saidOf (L.map worldOnly) [] a = saidOf L [] a := by unfold saidOf; rw [hst]
    cases hv : saidOf L [] a with
    | some v => exact .inl ((q1 v (hs.trans hv)).trans (p1 v hv).symm)
    | none => exact .inr ⟨q3 (hs.trans hv) hno', p3 hv hno⟩

/-- C144: asking `build_stage` for the world composes the world of the contributing layers. -/
theorem C144_world_taken (same : Str → Str → Bool) (kids : List Str → Str → List Str) (fuel fromIdx : Nat) (layers : List BLayer)
    (hok : ∀ l ∈ layers, Dict.Ok l.positions ∧ Dict.Ok l.collapse) (a : BLayer) (as : List BLayer)
    (hc : contributing fromIdx layers = a :: as) :
    ∃ c, buildStage same kids fuel fromIdx [['/']] layers = .ok c ∧
      c.outcome = .composed (Build.compose same kids a.realPath fuel (((a :: as).map (·.nodes)).map worldOnly)) := by
  cases layers with
  | nil => unfold contributing at hc; simp at hc
  | cons top rest =>
    obtain ⟨-, -, h3, -⟩ := Taking.takeLayers_spec fromIdx [] top.collapse (top :: rest) (top :: rest).length (Nat.le_refl _) hok
    have h3' : (takeLayers fromIdx top (top :: rest)).2.2.1 = (top :: rest).drop fromIdx := by
      unfold takeLayers
      rw [h3, Nat.sub_self, Nat.sub_zero]
    have hact := Taking.active_eq fromIdx (top :: rest)
    rw [← h3', hc] at hact
    unfold buildStage
    rw [if_neg (fun h => h.2 rfl)]
    simp only
    rw [hact]
    refine ⟨_, rfl, ?_⟩
    simp only [List.map_map]
    congr 2
    congr 1
    funext l
    unfold tableOf worldOnly
    rw [if_neg (by simp)]
    simp only [Function.comp_apply, List.mem_singleton]

/-! ## A concrete stage -/

/-- A layer with one node. -/
def exTaken (name : Char) (muted soloed : Bool) (pos : Int) : BLayer :=
  { nodes := [(render [], exInheritSpec [] .none .none [([name], .str [name])]),
      (render [[name]], exInheritSpec [[name]] .none .none [])]
    positions := [("/a".toList, .num pos)]
    collapse := [("/a".toList, .bool muted)]
    muted := muted
    soloed := soloed
    cwd := ['/', name]
    realPath := some [name] }

/-- What can be compared of a composite layer. -/
def exTakenRead (r : BRes) : Option (Option Str × Option (List Str) × Option Int) :=
  match r with
  | .ok c => some (c.cwd, (match c.outcome with | .composed (some (_, nodes)) => some (keys nodes) | _ => none),
      (match get? "/a".toList c.positions with | some (.num n) => some n | _ => none))
  | _ => none

def exTakenStage (m1 m2 m3 s2 : Bool) : List BLayer := [exTaken 'x' m1 false 1, exTaken 'y' m2 s2 2, exTaken 'z' m3 false 3]

def exTakenBuild (fromIdx : Nat) (paths : List Str) (layers : List BLayer) : BRes :=
  buildStage (fun a b => a == b) Proxies.kidPaths 5 fromIdx paths layers

example : exTakenRead (exTakenBuild 0 [] (exTakenStage false false false false)) =
    some (some "/x".toList, some ["/".toList, "/x".toList, "/y".toList, "/z".toList], some 1) := by decide +kernel

/-- The top layer muted: its position stays. -/
example : exTakenRead (exTakenBuild 0 [] (exTakenStage true false false false)) =
    some (some "/y".toList, some ["/".toList, "/y".toList, "/z".toList], some 1) := by decide +kernel

/-- From the second layer on, the second soloed; all muted; the world only. -/
example : exTakenRead (exTakenBuild 1 [] (exTakenStage false false false true)) =
    some (some "/y".toList, some ["/".toList, "/y".toList], some 1) := by decide +kernel
example : exTakenRead (exTakenBuild 0 [] (exTakenStage true true true false)) = some (none, none, some 1) := by decide +kernel
example : exTakenRead (exTakenBuild 2 [['/']] (exTakenStage true true false false)) =
    some (some "/z".toList, some ["/".toList], some 1) := by decide +kernel

/-- C144: muting a layer moves the working directory of the composition, even if only the layer below it has nodes. -/
theorem C144_cwd_violation : ∃ top rest, top.nodes = [] ∧
    (exTakenRead (exTakenBuild 0 [] (top :: rest))).map (·.1) = some (some "/x".toList) ∧
    (exTakenRead (exTakenBuild 0 [] ({ top with muted := true } :: rest))).map (·.1) = some (some "/y".toList) :=
  ⟨{ exTaken 'x' false false 1 with nodes := [] }, [exTaken 'y' false false 2], rfl, by decide +kernel, by decide +kernel⟩

/-- The hypotheses of `C144_mute_partial` are met. -/
example := C144_mute_partial (fun a b => a == b) Proxies.kidPaths 5 (exTakenStage true false true false)
  (by decide +kernel) (by decide +kernel) (by decide +kernel)

/-- Those of `C144_world` are met by the layers of C143. -/
example := C144_world exBuildLayers exBuildLayers_spec exBuildLayers_named exBuildLayers_world exBuildLayers_separate
  (fun a b => a == b) Proxies.kidPaths C79_scan none

end Nxt.Props
