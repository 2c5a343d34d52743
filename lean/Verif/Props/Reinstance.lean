import Verif.Lemmas.Reinstance
import Verif.Props.InheritLayers
import Verif.Props.Inherit
import Verif.Model.Proxies
/-!
# C124: the bases of composite nodes while an instance path is changed
-/
namespace Nxt.Props
open Dict NodeData Mro Inherit Spec Reinstance

/-- C124, composing: if what is instanced is always plain, every node takes from its specs, then from the nearest node
above it - unless that is the source of the instance, or above it -, then from the source; the order in which the nodes
are composed does not matter.  Missing: other sources (`C77_conflict_violation`). -/
theorem C124_stands_partial {g : Classes} {nodes : Dict Str Nat} {specs : Nat → List Nat}
    (h : Laid g nodes specs (fun _ => []))
    (hp : ∀ p c, (p, c) ∈ nodes → ∃ ns, Names ns ∧ p = render ns)
    (hpar : ∀ ns c, Names ns → (render ns, c) ∈ nodes →
      firstTable "_parent_path".toList (tablesOf g specs c) = some (.str (parentText ns)))
    (hins : ∀ p c, (p, c) ∈ nodes → (firstTable "_instance".toList (tablesOf g specs c)).isSome)
    (hplain : ∀ p c b, (p, c) ∈ nodes → instSource g nodes specs c = some b → Plain g nodes specs b)
    {order : List (Str × Nat)} (ho : order.Perm nodes) :
    ∃ g', postProxy nodes order g = some g' ∧ Stands g' nodes specs (instSource g nodes specs) := by
  obtain ⟨g', links, h1, _, h2⟩ := composed h hp hpar hins hplain ho
  exact ⟨g', h1, h2.stands hp⟩

/-- C124: changing the instance path of a node other than the world succeeds and gives the bases, and the attributes of
the user, of composing the changed graph, if what is instanced is plain before and after, and the old path is not that
of the world.  `g` and `g'` are the classes of the graph before and after the change, not yet composed; the nodes
handled along with it are those which are instances of it.  Missing: other sources (`C124_fails_violation`,
`C124_lost_violation`, `C124_dependants_violation`), the world (`C124_world_violation`). -/
theorem C124_change_partial {g g' : Classes} {nodes : Dict Str Nat} {specs : Nat → List Nat}
    (h : Laid g nodes specs (fun _ => [])) (h' : Laid g' nodes specs (fun _ => [])) (hsize : g'.size = g.size)
    (hp : ∀ p c, (p, c) ∈ nodes → ∃ ns, Names ns ∧ p = render ns)
    (hpar : ∀ ns c, Names ns → (render ns, c) ∈ nodes →
      firstTable "_parent_path".toList (tablesOf g specs c) = some (.str (parentText ns)))
    (hpar' : ∀ ns c, Names ns → (render ns, c) ∈ nodes →
      firstTable "_parent_path".toList (tablesOf g' specs c) = some (.str (parentText ns)))
    (hins : ∀ p c, (p, c) ∈ nodes → (firstTable "_instance".toList (tablesOf g specs c)).isSome)
    (hins' : ∀ p c, (p, c) ∈ nodes → (firstTable "_instance".toList (tablesOf g' specs c)).isSome)
    (hplain : ∀ p c b, (p, c) ∈ nodes → instSource g nodes specs c = some b → Plain g nodes specs b)
    (hplain' : ∀ p c b, (p, c) ∈ nodes → instSource g' nodes specs c = some b → Plain g' nodes specs b)
    {ns : List Str} {c : Nat} (hN : Names ns) (hne : ns ≠ []) (hc : (render ns, c) ∈ nodes)
    (hother : ∀ p d, (p, d) ∈ nodes → d ≠ c → instSource g' nodes specs d = instSource g nodes specs d)
    {old new : Option Str}
    (hold : firstTable "_instance".toList (tablesOf g specs c) = some ((old.map Val.str).getD .none))
    (hnew : firstTable "_instance".toList (tablesOf g' specs c) = some ((new.map Val.str).getD .none))
    (hworld : old ≠ some ['/'])
    {dependants : List Nat} (hdep : ∀ d ∈ dependants, (∃ p, (p, d) ∈ nodes) ∧ instSource g nodes specs d = some c ∧ d ≠ c)
    {order order' : List (Str × Nat)} (ho : order.Perm nodes) (ho' : order'.Perm nodes)
    {G G' : Classes} (hG : postProxy nodes order g = some G) (hG' : postProxy nodes order' g' = some G') :
    ∃ G2, setInstance nodes G c (render ns) (parentText ns) old new dependants = .ok G2 ∧
      (∀ p d, (p, d) ∈ nodes → G2.bases d = G'.bases d) ∧
      ∀ k, Untouched k → (∀ d < g.size, get? k (g'.own d) = get? k (g.own d)) →
        ∀ p d, (p, d) ∈ nodes → G2.attr? d k = G'.attr? d k := by
  obtain ⟨_, links, h1, hown, hC⟩ := composed h hp hpar hins hplain ho
  obtain ⟨_, links', h1', hown', hC'⟩ := composed h' hp hpar' hins' hplain' ho'
  rw [hG] at h1; cases h1
  rw [hG'] at h1'; cases h1'
  have hOld : instSource g nodes specs c = old.bind (fun o => get? o nodes) := by
    rw [instSource_eq hold]
    cases old with
    | none => rfl
    | some o =>
      have : o ≠ ['/'] := fun e => hworld (by rw [e])
      simp [this]
  have hNew : instSource g' nodes specs c = sourceNode nodes new := by
    rw [instSource_eq hnew]
    cases new <;> rfl
  obtain ⟨G2, links2, h3, h4, h5, h6⟩ := setInstance_ok hp hC hN hne hc hC'.none hC'.up hC'.source hother hOld hNew
    (dependants := dependants) (fun d hd => by
      obtain ⟨⟨p, h1⟩, h2, h3⟩ := hdep d hd
      exact ⟨⟨p, h1⟩, h2, by rw [hother p d h1 h3, h2]⟩)
  have hs1 : G.size = g.size := postProxy_size hG
  have hs2 : G'.size = g'.size := postProxy_size hG'
  have hs : G2.size = G'.size := by omega
  refine ⟨G2, h3, fun p d hd => ?_, fun k hk hkk p d hd => ?_⟩
  · exact same_bases hp hC' h6 hs d (by rw [← hs]; exact (h6.laid.comp p d hd).2.1)
  · have ht := untouched hk
    refine same_attr hp hC' h6 hs (fun d hd => ?_) hd
    rw [h4, hown d k ht, hown' d k ht, hkk d (by omega)]

/-! ## Concrete graphs -/

/-- Paths and numbers of specs decide about the classes and their bases. -/
theorem build_shape {l l' : List (Str × Dict Str Val × List (Dict Str Val))}
    (h : l.map (fun n => (n.1, n.2.2.length)) = l'.map (fun n => (n.1, n.2.2.length))) :
    (build l).2 = (build l').2 ∧ (build l).1.size = (build l').1.size ∧ (build l).1.bases = (build l').1.bases := by
  have key : ∀ (l l' : List (Str × Dict Str Val × List (Dict Str Val))) (s s' : Classes × Dict Str Nat),
      l.map (fun n => (n.1, n.2.2.length)) = l'.map (fun n => (n.1, n.2.2.length)) →
      s.2 = s'.2 ∧ s.1.size = s'.1.size ∧ s.1.bases = s'.1.bases →
      let f := fun (st : Classes × Dict Str Nat) (n : Str × Dict Str Val × List (Dict Str Val)) =>
        (addNode st.1 n.2.1 n.2.2, set n.1 st.1.size st.2)
      (l.foldl f s).2 = (l'.foldl f s').2 ∧ (l.foldl f s).1.size = (l'.foldl f s').1.size ∧
        (l.foldl f s).1.bases = (l'.foldl f s').1.bases := by
    intro l
    induction l with
    | nil =>
      intro l' s s' h hs
      cases l' with
      | nil => exact hs
      | cons _ _ => cases h
    | cons n l ih =>
      intro l' s s' h hs
      cases l' with
      | nil => cases h
      | cons n' l' =>
        simp only [List.map_cons, List.cons.injEq, Prod.mk.injEq] at h
        obtain ⟨⟨h1, h2⟩, h3⟩ := h
        obtain ⟨h4, h5, h6⟩ := hs
        refine ih l' _ _ h3 ⟨?_, ?_, ?_⟩
        · simp only [h1, h4, h5]
        · simp only [addNode, h2, h5]
        · simp only [addNode, h2, h5, h6]
  exact key l l' _ _ h ⟨rfl, rfl, rfl⟩

/-- Nodes none of which is an instance, with those above them, are plain. -/
theorem plain_of {g : Classes} {nodes : Dict Str Nat} {specs : Nat → List Nat} {S : Nat → Prop}
    (hn : ∀ c, S c → instSource g nodes specs c = none)
    (hup : ∀ ns c a, Names ns → (render ns, c) ∈ nodes → S c → nearestAbove nodes ns = some a → S a) {c : Nat} (hc : S c) :
    Plain g nodes specs c := by
  have step : ∀ c b, S c → TakesFrom g nodes specs c b → S b := by
    intro c b hc h
    cases h with
    | parent hN hm ha => exact hup _ c b hN hm hc ha
    | «instance» hm hi => rw [hn c hc] at hi; cases hi
  have go : ∀ c d, Draws g nodes specs c d → S c → S d := by
    intro c d hd
    induction hd with
    | one h => exact fun hc => step _ _ hc h
    | more h _ ih => exact fun hc => ih (step _ _ hc h)
  exact ⟨hn c hc, fun d hd => hn d (go c d hd hc)⟩

/-- The example with `/A/x` an instance of nothing, of `/B` or of `/A`. -/
def exInsts : List Val := [.none, .str "/B".toList, .str "/A".toList]

/-- In the example the only instance is `/A/x`, class 1. -/
theorem exInherit_inst {inst : Val} (hi : inst ∈ exInsts) :
    let g := (classesOf (exInheritLayers inst)).1
    let nodes := (classesOf (exInheritLayers inst)).2
    (∀ p d, (p, d) ∈ nodes → d ≠ 1 → instSource g nodes g.bases d = none) ∧
    ∀ p c b, (p, c) ∈ nodes → instSource g nodes g.bases c = some b → Plain g nodes g.bases b := by
  intro g nodes
  have hi : inst = .none ∨ inst = .str "/B".toList ∨ inst = .str "/A".toList := by simpa [exInsts] using hi
  have hnodes : nodes = [("/A/x".toList, 1), ("/A".toList, 4), ("/B".toList, 6), ("/".toList, 8)] := by
    rcases hi with rfl | rfl | rfl <;> decide +kernel
  have hnone : ∀ d ∈ [4, 6, 8], instSource g nodes g.bases d = none := by
    rcases hi with rfl | rfl | rfl <;> decide +kernel
  have hsrc : ∀ e ∈ nodes, ∀ b ∈ instSource g nodes g.bases e.2, b ∈ [4, 6, 8] := by
    rcases hi with rfl | rfl | rfl <;> decide +kernel
  have hall : ∀ e ∈ nodes, ∃ ns ∈ [[['A'], ['x']], [['A']], [['B']], []], e.1 = render ns := by
    rw [hnodes]; decide +kernel
  have hnames : ∀ ns ∈ [[['A'], ['x']], [['A']], [['B']], ([] : List Str)], Names ns := by unfold Names IsName; decide +kernel
  have hnear : ∀ ns ∈ [[['A'], ['x']], [['A']], [['B']], ([] : List Str)], ∀ a ∈ nearestAbove nodes ns, a ∈ [4, 6, 8] := by
    rw [hnodes]; decide +kernel
  refine ⟨fun p d hd hne => hnone d ?_, fun p c b hc hb => plain_of (S := (· ∈ [4, 6, 8])) hnone ?_ (hsrc _ hc b hb)⟩
  · have : ∀ e ∈ nodes, e.2 ≠ 1 → e.2 ∈ [4, 6, 8] := by rw [hnodes]; decide +kernel
    exact this _ hd hne
  · intro ns c a hN hc _ ha
    obtain ⟨ms, hm, he⟩ := hall _ hc
    have := Path.render_inj hN (hnames ms hm) he
    subst this
    exact hnear ns hm a ha

/-- Comparing texts and absent values. -/
def sameVal : Option Val → Option Val → Bool
  | none, none => true
  | some .none, some .none => true
  | some (.str a), some (.str b) => a == b
  | _, _ => false

theorem sameVal_eq : ∀ {a b : Option Val}, sameVal a b = true → a = b
  | none, none, _ => rfl
  | some .none, some .none, _ => rfl
  | some (.str _), some (.str _), h => by rw [eq_of_beq h]

/-- The text of an instance path. -/
def textOf : Val → Option Str
  | .str s => some s
  | _ => none

theorem exInherit_shape {i j : Val} (hi : i ∈ exInsts) (hj : j ∈ exInsts) :
    (classesOf (exInheritLayers j)).2 = (classesOf (exInheritLayers i)).2 ∧
      (classesOf (exInheritLayers j)).1.size = (classesOf (exInheritLayers i)).1.size ∧
      (classesOf (exInheritLayers j)).1.bases = (classesOf (exInheritLayers i)).1.bases := by
  have hi' : i = .none ∨ i = .str "/B".toList ∨ i = .str "/A".toList := by simpa [exInsts] using hi
  have hj' : j = .none ∨ j = .str "/B".toList ∨ j = .str "/A".toList := by simpa [exInsts] using hj
  apply build_shape
  rcases hi' with rfl | rfl | rfl <;> rcases hj' with rfl | rfl | rfl <;> decide +kernel

theorem exInherit_old {i : Val} (hi : i ∈ exInsts) :
    firstTable "_instance".toList (tablesOf (classesOf (exInheritLayers i)).1 (classesOf (exInheritLayers i)).1.bases 1) =
      some (((textOf i).map Val.str).getD .none) ∧ textOf i ≠ some ['/'] ∧
    (render [['A'], ['x']], 1) ∈ (classesOf (exInheritLayers i)).2 := by
  have hi' : i = .none ∨ i = .str "/B".toList ∨ i = .str "/A".toList := by simpa [exInsts] using hi
  refine ⟨?_, ?_, ?_⟩
  · apply sameVal_eq
    rcases hi' with rfl | rfl | rfl <;> decide +kernel
  · rcases hi' with rfl | rfl | rfl <;> decide +kernel
  · rcases hi' with rfl | rfl | rfl <;> decide +kernel

theorem exInherit_own {i j : Val} (hi : i ∈ exInsts) (hj : j ∈ exInsts) :
    ∀ d < (classesOf (exInheritLayers i)).1.size,
      get? ['n'] ((classesOf (exInheritLayers j)).1.own d) = get? ['n'] ((classesOf (exInheritLayers i)).1.own d) := by
  have hi' : i = .none ∨ i = .str "/B".toList ∨ i = .str "/A".toList := by simpa [exInsts] using hi
  have hj' : j = .none ∨ j = .str "/B".toList ∨ j = .str "/A".toList := by simpa [exInsts] using hj
  have : ∀ d < (classesOf (exInheritLayers i)).1.size, sameVal (get? ['n'] ((classesOf (exInheritLayers j)).1.own d))
      (get? ['n'] ((classesOf (exInheritLayers i)).1.own d)) = true := by
    rcases hi' with rfl | rfl | rfl <;> rcases hj' with rfl | rfl | rfl <;> decide +kernel
  exact fun d hd => sameVal_eq (this d hd)

/-- Any of the three becomes any other. -/
example {i j : Val} (hi : i ∈ exInsts) (hj : j ∈ exInsts) : ∃ G G' G2,
    postProxy (classesOf (exInheritLayers i)).2 (classesOf (exInheritLayers i)).2 (classesOf (exInheritLayers i)).1 = some G ∧
    postProxy (classesOf (exInheritLayers j)).2 (classesOf (exInheritLayers j)).2 (classesOf (exInheritLayers j)).1 = some G' ∧
    setInstance (classesOf (exInheritLayers i)).2 G 1 (render [['A'], ['x']]) (parentText [['A'], ['x']]) (textOf i)
      (textOf j) [] = .ok G2 ∧ G2.bases 1 = G'.bases 1 ∧ G2.attr? 1 ['n'] = G'.attr? 1 ['n'] := by
  obtain ⟨hn, hs, hb⟩ := exInherit_shape hi hj
  obtain ⟨a1, a2, a3, a4, _⟩ := classesOf_ready (exInheritLayers_ok i)
  obtain ⟨b1, _, b3, b4, _⟩ := classesOf_ready (exInheritLayers_ok j)
  obtain ⟨a5, a6⟩ := exInherit_inst hi
  obtain ⟨b5, b6⟩ := exInherit_inst hj
  obtain ⟨a7, a8, a9⟩ := exInherit_old hi
  obtain ⟨b7, _, _⟩ := exInherit_old hj
  have hk := exInherit_own hi hj
  generalize (classesOf (exInheritLayers i)).1 = g at *
  generalize (classesOf (exInheritLayers j)).1 = g' at *
  generalize (classesOf (exInheritLayers i)).2 = nodes at *
  generalize (classesOf (exInheritLayers j)).2 = nodes' at *
  subst hn
  simp only [hb] at b1 b3 b4 b5 b6 b7
  obtain ⟨G, hG⟩ := C77_plain_sources_partial a1 a2 a3 a4 a6 (List.Perm.refl _)
  obtain ⟨G', hG'⟩ := C77_plain_sources_partial b1 a2 b3 b4 b6 (List.Perm.refl _)
  obtain ⟨G2, c1, c2, c3⟩ := C124_change_partial a1 b1 hs a2 a3 b3 a4 b4 a6 b6 (ns := [['A'], ['x']]) (c := 1)
    (by unfold Names IsName; decide +kernel) (by simp) a9 (fun p d hd hne => by rw [a5 p d hd hne, b5 p d hd hne])
    a7 b7 a8 (dependants := []) (by simp) (List.Perm.refl _) (List.Perm.refl _) hG hG'
  exact ⟨G, G', G2, hG, hG', c1, c2 _ 1 a9, c3 ['n'] (by decide +kernel) hk _ 1 a9⟩

/-- The bases of the node at `p` after composing. -/
def exStandBases (l : List (List String × String)) (p : String) : Option (List Nat) :=
  let s := classesOf (exInstLayer l)
  match postProxy s.2 (sortInstances s.2 s.2 s.1) s.1, get? p.toList s.2 with
  | some g, some c => some (g.bases c)
  | _, _ => none

/-- What comes of changing the instance path of the node at `path` from `old` to `new` - the error, or the bases of the
node at `p`; `dirty` is the map of the instances of the paths. -/
def exChange (l : List (List String × String)) (path pp : String) (old new : Option String) (dirty : List (String × List String))
    (p : String) : Option (Sum Err (List Nat)) :=
  let s := classesOf (exInstLayer l)
  let m := dirty.map (fun e => (e.1.toList, e.2.map String.toList))
  let deps := ((Proxies.dirties m path.toList).filter (· ≠ path.toList)).filterMap (fun q => get? q s.2)
  match postProxy s.2 (sortInstances s.2 s.2 s.1) s.1, get? path.toList s.2, get? p.toList s.2 with
  | some g, some c, some d =>
    match setInstance s.2 g c path.toList pp.toList (old.map String.toList) (new.map String.toList) deps with
    | .ok g' => some (.inr (g'.bases d))
    | .error e => some (.inl e)
  | _, _, _ => none

/-- From `/b` to `/a/u`, which is below the node above: the parent goes from the bases and comes back. -/
example : exStandBases [(["a"], ""), (["a", "u"], ""), (["a", "x"], "/b"), (["b"], "")] "/a/x" = some [8, 3, 9] ∧
    exStandBases [(["a"], ""), (["a", "u"], ""), (["a", "x"], "/a/u"), (["b"], "")] "/a/x" = some [8, 5] ∧
    exChange [(["a"], ""), (["a", "u"], ""), (["a", "x"], "/b"), (["b"], "")] "/a/x" "/a" (some "/b") (some "/a/u")
      [("/b", ["/a/x"])] "/a/x" = some (.inr [8, 5]) ∧
    exChange [(["a"], ""), (["a", "u"], ""), (["a", "x"], "/a/u"), (["b"], "")] "/a/x" "/a" (some "/a/u") (some "/b")
      [("/a/u", ["/a/x"])] "/a/x" = some (.inr [8, 3, 9]) := by decide +kernel

/-- Bases without an order: a class cannot be its own base. -/
example : (match replaceBases (classesOf (exInstLayer [(["a"], "")])).1 3 [4, 3] with
    | .ok _ => none
    | .error e => some e) = some .type := by decide +kernel

/-- C124, what does not hold: the graph can be composed anew after the change, but the change fails. -/
theorem C124_fails_violation :
    exChange [(["p"], ""), (["p", "x"], "/a"), (["a"], ""), (["p", "y"], "")] "/a" "/" none (some "/p/y")
      [("/a", ["/p/x"])] "/a" = some (.inl .type) ∧
    exStandBases [(["p"], ""), (["p", "x"], "/a"), (["a"], "/p/y"), (["p", "y"], "")] "/a" = some [8, 9] := by
  decide +kernel

/-- C124, what does not hold: after taking the instance path of `/a` away, its instance `/p/x` has no parent among its
bases; composing anew gives it one. -/
theorem C124_lost_violation :
    exChange [(["p"], ""), (["p", "x"], "/a"), (["a"], "/p/y"), (["p", "y"], "")] "/a" "/" (some "/p/y") none
      [("/a", ["/p/x"]), ("/p/y", ["/a"])] "/p/x" = some (.inr [6, 7]) ∧
    exStandBases [(["p"], ""), (["p", "x"], "/a"), (["a"], ""), (["p", "y"], "")] "/p/x" = some [6, 3, 7] := by
  decide +kernel

/-- The change of `/c` makes it a base of `/z`, an instance of an instance of it. -/
example :
    exChange [(["c"], ""), (["y"], "/c"), (["z"], "/y"), (["s"], "")] "/c" "/" none (some "/s")
      [("/c", ["/y"]), ("/y", ["/z"])] "/z" = some (.inr [8, 5, 3]) ∧
    exStandBases [(["c"], "/s"), (["y"], "/c"), (["z"], "/y"), (["s"], "")] "/z" = some [8, 5] := by
  decide +kernel

/-- C124, what does not hold: after the instance path of `/c` and then that of its instance `/y` are changed, `/z`, an
instance of `/y`, takes from `/c`, which it has nothing to do with any more. -/
theorem C124_dependants_violation :
    let l := [(["c"], ""), (["y"], "/c"), (["z"], "/y"), (["s"], "")]
    let s := classesOf (exInstLayer l)
    (match postProxy s.2 (sortInstances s.2 s.2 s.1) s.1 with
      | some g =>
        match setInstance s.2 g 3 "/c".toList "/".toList none (some "/s".toList)
            (((Proxies.dirties [("/c".toList, ["/y".toList]), ("/y".toList, ["/z".toList])] "/c".toList).filter
              (· ≠ "/c".toList)).filterMap (fun q => get? q s.2)) with
        | .ok g =>
          match setInstance s.2 g 5 "/y".toList "/".toList (some "/c".toList) none
              (((Proxies.dirties [("/y".toList, ["/z".toList])] "/y".toList).filter (· ≠ "/y".toList)).filterMap
                (fun q => get? q s.2)) with
          | .ok g => some (g.bases 5, g.bases 7, g.mro 7)
          | .error _ => none
        | .error _ => none
      | none => none) = some ([6, 1], [8, 5, 3], some [7, 8, 5, 6, 3, 4, 9, 10, 1, 2, 0]) ∧
    s.2 = [("/".toList, 1), ("/c".toList, 3), ("/y".toList, 5), ("/z".toList, 7), ("/s".toList, 9)] ∧
    exStandBases [(["c"], "/s"), (["y"], ""), (["z"], "/y"), (["s"], "")] "/z" = some [8, 5] := by decide +kernel

/-- C124, what does not hold: the instance path `/` can be given to a node below others but not taken away again. -/
theorem C124_world_violation :
    exChange [(["p"], ""), (["p", "x"], "")] "/p/x" "/p" none (some "/") [] "/p/x" = some (.inr [6, 3]) ∧
    exChange [(["p"], ""), (["p", "x"], "/")] "/p/x" "/p" (some "/") none [] "/p/x" = some (.inl .value) ∧
    exStandBases [(["p"], ""), (["p", "x"], "")] "/p/x" = some [6, 3] := by decide +kernel

end Nxt.Props
