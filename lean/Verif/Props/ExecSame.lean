import Verif.Spec.ExecSame
import Verif.Props.Start
/-!
# What the order of execution depends on: C137
-/
namespace Nxt.Props
open Dict Tree Exec Spec Path

namespace SameOrder

theorem same_parent {a b : Nodes} (A : TreeOk a) (B : TreeOk b) {p : Str} {n m : LNode} (h : get? p a = some n)
    (h' : get? p b = some m) : n.parent = m.parent := by
  rcases A.node p n (mem_of_get? h) with ⟨rfl, h1, _⟩ | ⟨ns, x, h1, rfl, h3, _⟩
  · rcases B.node _ m (mem_of_get? h') with ⟨_, k1, _⟩ | ⟨ms, y, k1, k2, _, _⟩
    · rw [h1, k1]
    · have := (render_eq_world k1).1 k2.symm
      simp at this
  · rcases B.node _ m (mem_of_get? h') with ⟨k0, _, _⟩ | ⟨ms, y, k1, k2, k3, _⟩
    · have := (render_eq_world h1).1 k0
      simp at this
    · have := render_inj h1 k1 k2
      obtain ⟨rfl, _⟩ := List.append_inj' this rfl
      rw [h3, k3]

theorem other {a b : Nodes} (S : SameTree a b) {p : Str} {n : LNode} (hw : p ≠ ['/']) (h : get? p a = some n) :
    ∃ m, get? p b = some m ∧ n.childOrder = m.childOrder ∧ ∀ s, n.execIn = .str s ↔ m.execIn = .str s := by
  have : p ∈ keys b := (S.paths p).1 (get?_isSome.1 (by rw [h]; rfl))
  obtain ⟨m, hm⟩ := Option.isSome_iff_exists.1 (get?_isSome.2 this)
  exact ⟨m, hm, S.node p n m hw h hm⟩

theorem symm {a b : Nodes} (S : SameTree a b) : SameTree b a where
  paths := fun p => (S.paths p).symm
  node := fun p n m hw h h' => let ⟨x, y⟩ := S.node p m n hw h' h; ⟨x.symm, fun s => (y s).symm⟩
  off := fun p => (S.off p).symm

theorem root_ne {a : Nodes} (T : TreeOk a) {p : Str} {n : LNode} (h : get? p a = some n) (hp : n.parent = ['/']) : p ≠ ['/'] := by
  rintro rfl
  rcases T.node _ n (mem_of_get? h) with ⟨_, h1, _⟩ | ⟨ms, y, k1, k2, _, _⟩
  · rw [h1] at hp; cases hp
  · have := (render_eq_world k1).1 k2.symm
    simp at this

theorem nextRoot_some {a : Nodes} (T : TreeOk a) {prev q : Str} (h : nextRoot a prev = some q) :
    ∃ n, get? q a = some n ∧ n.parent = ['/'] ∧ n.execIn = .str prev := by
  unfold nextRoot at h
  obtain ⟨e, he, rfl⟩ := Option.map_eq_some_iff.1 h
  have h1 := List.mem_of_find?_eq_some he
  have h2 := List.find?_some he
  unfold scan at h1
  obtain ⟨h3, h4⟩ := List.mem_filter.1 h1
  refine ⟨e.2, get?_of_mem T.ok h3, of_decide_eq_true h4, ?_⟩
  cases hx : e.2.execIn <;> rw [hx] at h2 <;> simp at h2
  rw [h2]

theorem nextRoot_isSome {a : Nodes} {prev q : Str} {n : LNode} (h : get? q a = some n) (hp : n.parent = ['/'])
    (he : n.execIn = .str prev) : (nextRoot a prev).isSome := by
  unfold nextRoot
  rw [Option.isSome_map, List.find?_isSome]
  refine ⟨(q, n), ?_, ?_⟩
  · unfold scan
    exact List.mem_filter.2 ⟨mem_of_get? h, by simp [hp, WORLD]⟩
  · simp [he]

theorem nextRoot_same {a b : Nodes} (A : TreeOk a) (B : TreeOk b) (S : SameTree a b) (O : OneNext a) (prev : Str) :
    nextRoot a prev = nextRoot b prev := by
  cases ha : nextRoot a prev with
  | none =>
    cases hb : nextRoot b prev with
    | none => rfl
    | some q =>
      exfalso
      obtain ⟨m, h1, h2, h3⟩ := nextRoot_some B hb
      obtain ⟨n, g1, g2, g3⟩ := other (symm S) (root_ne B h1 h2) h1
      have := nextRoot_isSome g1 (by rw [← same_parent B A h1 g1]; exact h2) ((g3 prev).1 h3)
      rw [ha] at this
      cases this
  | some p =>
    obtain ⟨n, h1, h2, h3⟩ := nextRoot_some A ha
    obtain ⟨m, g1, g2, g3⟩ := other S (root_ne A h1 h2) h1
    have := nextRoot_isSome g1 (by rw [← same_parent A B h1 g1]; exact h2) ((g3 prev).1 h3)
    obtain ⟨q, hq⟩ := Option.isSome_iff_exists.1 this
    rw [hq]
    obtain ⟨m', k1, k2, k3⟩ := nextRoot_some B hq
    obtain ⟨n', l1, _, l3⟩ := other (symm S) (root_ne B k1 k2) k1
    rw [O p n q n' prev h1 l1 h2 (by rw [← same_parent B A k1 l1]; exact k2) h3 ((l3 prev).1 k3)]

theorem rootLoop_same {a b : Nodes} (h : ∀ p, nextRoot a p = nextRoot b p) (fuel : Nat) (p : Str) (l : List Str) :
    rootLoop a fuel p l = rootLoop b fuel p l := by
  induction fuel generalizing p l with
  | zero => rfl
  | succ f ih =>
    rw [rootLoop, rootLoop, h p]
    cases nextRoot b p with
    | none => rfl
    | some q => exact ih q _

theorem isEnabled_off {a : Nodes} (p : Str) : isEnabled a p = false ↔ Off a p := by
  unfold isEnabled Off
  cases h : get? p a with
  | none => simp
  | some n =>
    simp only [Option.some.injEq]
    cases hv : n.enabled <;> simp [hv]

theorem isEnabled_same {a b : Nodes} (S : SameTree a b) (p : Str) : isEnabled a p = isEnabled b p := by
  have := S.off p
  rw [← isEnabled_off, ← isEnabled_off] at this
  cases h1 : isEnabled a p <;> cases h2 : isEnabled b p <;> simp_all

/-- Children in their order, when all are listed, do not depend on the order they are found in. -/
theorem orderPaths_perm {co ps ps' : List Str} (hp : ps.Perm ps') (hn : ps.Nodup)
    (hi : ∀ x ∈ ps, ∀ y ∈ ps, nodeName x = nodeName y → x = y) (hc : ∀ x ∈ ps, nodeName x ∈ co) :
    orderPaths co ps = orderPaths co ps' := by
  unfold orderPaths
  by_cases h0 : co = []
  · rw [if_pos h0, if_pos h0]
    have : ps = [] := by
      cases ps with
      | nil => rfl
      | cons x _ => have := hc x (by simp); rw [h0] at this; cases this
    subst this
    exact (List.nil_perm.1 hp).symm
  · rw [if_neg h0, if_neg h0]
    have hf : ∀ c, ps.filter (fun p => nodeName p = c) = ps'.filter (fun p => nodeName p = c) := by
      intro c
      have h1 := hp.filter (fun p => decide (nodeName p = c))
      have h2 : (ps.filter (fun p => decide (nodeName p = c))).length ≤ 1 := by
        have hnd : (ps.filter (fun p => decide (nodeName p = c))).Nodup := hn.filter _
        have hmem : ∀ x ∈ ps.filter (fun p => decide (nodeName p = c)), x ∈ ps ∧ nodeName x = c := by
          intro x hx
          obtain ⟨h1, h2⟩ := List.mem_filter.1 hx
          exact ⟨h1, by simpa using h2⟩
        generalize ps.filter (fun p => decide (nodeName p = c)) = l at hnd hmem ⊢
        match l, hnd, hmem with
        | [], _, _ => simp
        | [_], _, _ => simp
        | x :: y :: r, hnd, hmem =>
          exfalso
          have hx := hmem x (by simp)
          have hy := hmem y (by simp)
          have := hi x hx.1 y hy.1 (hx.2.trans hy.2.symm)
          subst this
          simp at hnd
      generalize ps.filter (fun p => decide (nodeName p = c)) = l at h1 h2 ⊢
      match l, h1, h2 with
      | [], h1, _ => exact (List.nil_perm.1 h1).symm
      | [x], h1, _ => exact List.singleton_perm.1 h1
      | _ :: _ :: _, _, h2 => simp at h2
    have hfull : ∀ qs : List Str, (∀ x ∈ qs, x ∈ ps) →
        addMissing (co.flatMap (fun c => ps.filter (fun p => nodeName p = c))) qs =
          co.flatMap (fun c => ps.filter (fun p => nodeName p = c)) := by
      intro qs hq
      have hin : ∀ x ∈ qs, x ∈ co.flatMap (fun c => ps.filter (fun p => nodeName p = c)) := by
        intro x hx
        exact List.mem_flatMap.2 ⟨nodeName x, hc x (hq x hx), List.mem_filter.2 ⟨hq x hx, by simp⟩⟩
      unfold addMissing
      clear hq
      induction qs with
      | nil => rfl
      | cons x qs ih =>
        rw [List.foldl_cons, if_pos (hin x (by simp))]
        exact ih fun y hy => hin y (by simp [hy])
    rw [hfull ps (fun _ h => h)]
    have : (fun c => ps'.filter (fun p => decide (nodeName p = c))) = fun c => ps.filter (fun p => decide (nodeName p = c)) := by
      funext c; exact (hf c).symm
    rw [this, hfull ps' (fun x hx => hp.mem_iff.2 hx)]

theorem children_same {a b : Nodes} (A : TreeOk a) (B : TreeOk b) (S : SameTree a b) (L : AllListed a) {ka kb : Str → Nodes}
    (KA : KidsOk a ka) (KB : KidsOk b kb) (p : Str) (hw : p ≠ WORLD) :
    orderedPaths a (ka p) p false = orderedPaths b (kb p) p false := by
  unfold orderedPaths
  by_cases hp : p = []
  · rw [if_pos hp, if_pos hp]
  · rw [if_neg hp, if_neg hp]
    unfold orderOf
    cases ha : get? p a with
    | none =>
      have : get? p b = none := by
        rw [get?_eq_none] at ha ⊢
        exact fun h => ha ((S.paths p).2 h)
      rw [this]
      rfl
    | some n =>
      obtain ⟨m, hm, h1, _⟩ := other S hw ha
      rw [hm]
      simp only [Option.map_some, Option.some.injEq]
      rw [h1]
      obtain ⟨c1, c2⟩ := childPaths_real A KA p
      obtain ⟨d1, d2⟩ := childPaths_real B KB p
      refine orderPaths_perm ?_ c1 ?_ ?_
      · rw [List.perm_ext_iff_of_nodup c1 d1]
        intro q
        rw [c2, d2]
        unfold IsChild
        simp only [S.paths]
      · intro x hx y hy hxy
        obtain ⟨ns, u, e1, e2, rfl, _⟩ := (c2 x).1 hx
        obtain ⟨ms, v, f1, f2, rfl, _⟩ := (c2 y).1 hy
        have := render_inj (names_append.1 e1).1 (names_append.1 f1).1 (e2.symm.trans f2)
        subst this
        rw [(C09_parent_name_join _ _ e1).2.1, (C09_parent_name_join _ _ f1).2.1] at hxy
        rw [hxy]
      · intro x hx
        obtain ⟨ns, u, e1, rfl, rfl, e4⟩ := (c2 x).1 hx
        rw [(C09_parent_name_join _ _ e1).2.1, ← h1]
        refine L ns u n e1 ?_ e4 ha
        rintro rfl
        exact hw rfl

theorem child_ne_world {a : Nodes} (A : TreeOk a) {ka : Str → Nodes} (KA : KidsOk a ka) {p q : Str} {cs : List Str}
    (h : orderedPaths a (ka p) p false = some cs) (hq : q ∈ cs) : q ≠ WORLD := by
  have hmem : q ∈ childPaths a (ka p) p false := by
    unfold orderedPaths at h
    split at h
    · cases h; cases hq
    · obtain ⟨co, _, rfl⟩ := Option.map_eq_some_iff.1 h
      unfold orderPaths at hq
      split at hq
      · exact hq
      · have key : ∀ (l acc : List Str), q ∈ addMissing acc l → q ∈ acc ∨ q ∈ l := by
          intro l
          unfold addMissing
          induction l with
          | nil => intro acc h; exact .inl h
          | cons x l ih =>
            intro acc h
            rw [List.foldl_cons] at h
            rcases ih _ h with h | h
            · split at h
              · exact .inl h
              · rcases List.mem_append.1 h with h | h
                · exact .inl h
                · exact .inr (by rw [List.mem_singleton.1 h]; simp)
            · exact .inr (by simp [h])
        rcases key _ _ hq with h | h
        · obtain ⟨c, _, h⟩ := List.mem_flatMap.1 h
          exact (List.mem_filter.1 h).1
        · exact h
  obtain ⟨ns, x, h1, _, rfl, _⟩ := ((childPaths_real A KA p).2 q).1 hmem
  intro e
  have := (render_eq_world h1).1 e
  simp at this

theorem orderedDesc_same {a b : Nodes} (A : TreeOk a) (B : TreeOk b) (S : SameTree a b) (L : AllListed a) {ka kb : Str → Nodes}
    (KA : KidsOk a ka) (KB : KidsOk b kb) (fuel : Nat) (p : Str) (hw : p ≠ WORLD) :
    orderedDesc (fun q => orderedPaths a (ka q) q false) fuel p =
      orderedDesc (fun q => orderedPaths b (kb q) q false) fuel p := by
  induction fuel generalizing p with
  | zero => rfl
  | succ f ih =>
    rw [orderedDesc, orderedDesc]
    have hc := children_same A B S L KA KB p hw
    rw [← hc]
    cases h : orderedPaths a (ka p) p false with
    | none => rfl
    | some cs =>
      simp only []
      have hne : ∀ c ∈ cs, c ≠ WORLD := fun c hcs => child_ne_world A KA h hcs
      have : cs.mapM (fun c => (orderedDesc (fun q => orderedPaths a (ka q) q false) f c).map (fun d => c :: d)) =
          cs.mapM (fun c => (orderedDesc (fun q => orderedPaths b (kb q) q false) f c).map (fun d => c :: d)) := by
        clear h
        induction cs with
        | nil => rfl
        | cons c cs ih' =>
          rw [List.mapM_cons, List.mapM_cons, ih c (hne c (by simp)), ih' fun x hx => hne x (by simp [hx])]
      rw [this]

theorem rootStep_same {a b : Nodes} (S : SameTree a b) {da db : Str → Option (List Str)} (hd : ∀ r, da r = db r) (start : Str) :
    rootStep a da start = rootStep b db start := by
  have hs : descStep a start = descStep b start := by
    funext s d
    unfold descStep
    rw [isEnabled_same S d]
  funext st root
  unfold rootStep
  rw [isEnabled_same S root, hd root, hs]

theorem of_perm {a b : Nodes} (A : TreeOk a) (h : b.Perm a) : TreeOk b ∧ SameTree a b := by
  have hok : Ok b := (h.map Prod.fst).nodup_iff.2 A.ok
  have hg : ∀ p, get? p b = get? p a := fun p => get?_perm hok h p
  refine ⟨⟨hok, fun q n hm => A.node q n (h.mem_iff.1 hm), fun q n hm => A.order q n (h.mem_iff.1 hm)⟩, ?_, ?_, ?_⟩
  · intro p; exact ((h.map Prod.fst).mem_iff).symm
  · intro p n m _ h1 h2
    rw [hg, h1] at h2
    cases h2
    exact ⟨rfl, fun _ => Iff.rfl⟩
  · intro p; unfold Off; rw [hg]

end SameOrder
open SameOrder

/-- C137: the order of execution depends on the child orders, on the roots to execute after and on what is switched
off, but not on the order of the nodes in the layer, provided that the child orders are complete and no two roots
execute after the same one. -/
theorem C137_order_partial {a b : Nodes} (A : TreeOk a) (B : TreeOk b) (S : SameTree a b) (L : AllListed a) (O : OneNext a)
    {ka kb : Str → Nodes} (KA : KidsOk a ka) (KB : KidsOk b kb) (fuel : Nat) (start : Str) :
    execOrder a ka fuel start = execOrder b kb fuel start := by
  unfold execOrder
  split
  · rfl
  · have hr : rootOrder a fuel (rootPath start) = rootOrder b fuel (rootPath start) :=
      rootLoop_same (nextRoot_same A B S O) fuel _ _
    have hd : ∀ r, descendantsOrdered a ka false fuel r = descendantsOrdered b kb false fuel r := by
      intro r
      unfold descendantsOrdered
      split
      · rfl
      · rename_i hw
        exact orderedDesc_same A B S L KA KB fuel r hw
    rw [hr, rootStep_same S hd start]

/-- C137: so does a whole execution from a given node, when code sees the same state. -/
theorem C137_execute_partial {σ : Type} {a b : Nodes} (A : TreeOk a) (B : TreeOk b) (S : SameTree a b) (L : AllListed a)
    (O : OneNext a) {ka kb : Str → Nodes} (KA : KidsOk a ka) (KB : KidsOk b kb) (fuel : Nat) (pa pb : Str → Val)
    (look : σ → Str → Option Val) (run : Str → σ → Times → Outcome × σ × Times) (clock : σ → Int) (p : Str) (s : σ) (ts : Times) :
    Start.execute a ka pa fuel look run clock (.path p) s ts = Start.execute b kb pb fuel look run clock (.path p) s ts := by
  unfold Start.execute Start.startPath
  simp only []
  by_cases hp : p ∈ keys a
  · rw [if_pos hp, if_pos ((S.paths p).1 hp)]
    simp only []
    rw [C137_order_partial A B S L O KA KB fuel p]
  · rw [if_neg hp, if_neg fun h => hp ((S.paths p).2 h)]

/-- C137: without a node to start from, the executions are the same if there is but one start point. -/
theorem C137_start_partial {σ : Type} {a b : Nodes} (A : TreeOk a) (B : TreeOk b) (S : SameTree a b) (L : AllListed a)
    (O : OneNext a) {ka kb : Str → Nodes} (KA : KidsOk a ka) (KB : KidsOk b kb) (fuel : Nat) (point point' : Str → Val)
    (h0 : ∀ p ∈ keys a, p ≠ ['/'] → (point p).truthy = (point' p).truthy)
    (h1 : ∀ p q, p ∈ keys a → q ∈ keys a → p ≠ ['/'] → q ≠ ['/'] → (point p).truthy = true → (point q).truthy = true → p = q)
    (look : σ → Str → Option Val) (run : Str → σ → Times → Outcome × σ × Times) (clock : σ → Int) (arg : Start.Arg) (s : σ)
    (ts : Times) :
    Start.execute a ka point fuel look run clock arg s ts = Start.execute b kb point' fuel look run clock arg s ts := by
  cases arg with
  | path p => exact C137_execute_partial A B S L O KA KB fuel point point' look run clock p s ts
  | other v =>
    have mem : ∀ (x : Nodes) (point : Str → Val) (p : Str), p ∈ Start.startNodes x point ↔
        p ∈ keys x ∧ p ≠ ['/'] ∧ (point p).truthy = true := by
      intro x point p
      unfold Start.startNodes
      simp only [List.mem_map, List.mem_filter, decide_eq_true_eq]
      constructor
      · rintro ⟨e, ⟨⟨h1, h2⟩, h3⟩, rfl⟩
        exact ⟨mem_keys_of_mem h1, h2, h3⟩
      · rintro ⟨h1, h2, h3⟩
        obtain ⟨n, hn⟩ := mem_keys.1 h1
        exact ⟨(p, n), ⟨⟨hn, h2⟩, h3⟩, rfl⟩
    have hs : (Start.startNodes a point).head? = (Start.startNodes b point').head? := by
      cases ha : Start.startNodes a point with
      | nil =>
        cases hb : Start.startNodes b point' with
        | nil => rfl
        | cons q l =>
          have := (mem b _ q).1 (by rw [hb]; simp)
          have hk := (S.paths q).2 this.1
          have := (mem a _ q).2 ⟨hk, this.2.1, by rw [h0 q hk this.2.1]; exact this.2.2⟩
          rw [ha] at this
          cases this
      | cons p l =>
        have hp := (mem a _ p).1 (by rw [ha]; simp)
        have hp' := (mem b point' p).2 ⟨(S.paths p).1 hp.1, hp.2.1, by rw [← h0 p hp.1 hp.2.1]; exact hp.2.2⟩
        cases hb : Start.startNodes b point' with
        | nil => rw [hb] at hp'; cases hp'
        | cons q l' =>
          have hq := (mem b _ q).1 (by rw [hb]; simp)
          have hk := (S.paths q).2 hq.1
          rw [h1 p q hp.1 hk hp.2.1 hq.2.1 hp.2.2 (by rw [h0 q hk hq.2.1]; exact hq.2.2)]
          rfl
    unfold Start.execute Start.startPath
    simp only []
    cases ha : Start.startNodes a point with
    | nil =>
      rw [ha] at hs
      cases hb : Start.startNodes b point' with
      | nil => rfl
      | cons q l => rw [hb] at hs; cases hs
    | cons p l =>
      rw [ha] at hs
      cases hb : Start.startNodes b point' with
      | nil => rw [hb] at hs; cases hs
      | cons q l' =>
        rw [hb] at hs
        cases hs
        simp only []
        rw [C137_order_partial A B S L O KA KB fuel p]

/-! ### Where the order of the nodes shows -/

/-- Nodes with a name below a parent. -/
def exNode (parent name : String) (order : List String) (execIn : Val) : Str × LNode :=
  (((if parent = "/" then "" else parent) ++ "/" ++ name).toList,
    ⟨name.toList, parent.toList, order.map String.toList, .none, execIn⟩)

/-- Two roots execute after `/a`. -/
def exTwoNext : Nodes :=
  [exNode "/" "a" ["y", "x"] .none, exNode "/a" "x" [] .none, exNode "/a" "y" [] .none,
   exNode "/" "c" [] (.str "/a".toList), exNode "/" "b" [] (.str "/a".toList)]

/-- `/a` does not list its children. -/
def exUnlisted : Nodes := [exNode "/" "a" [] .none, exNode "/a" "y" [] .none, exNode "/a" "x" [] .none]

/-- The order of execution in a layer. -/
def exOrderIn (nodes : Nodes) (p : String) : Option (List String) :=
  (execOrder nodes (scan (fun a b => a == b) nodes) 9 p.toList).map (fun l => l.map String.ofList)

/-- A layer with complete child orders and one root after `/a`. -/
def exListed : Nodes :=
  [exNode "/" "a" ["y", "x"] .none, exNode "/a" "x" [] .none, exNode "/a" "y" [] .none, exNode "/" "b" [] (.str "/a".toList)]

theorem exListed_ok : TreeOk exListed where
  ok := by show (keys exListed).Nodup; decide +kernel
  node := by
    intro q n h
    have key : ∀ e ∈ exListed, ∃ w ∈ ([([], ['a']), ([['a']], ['x']), ([['a']], ['y']), ([], ['b'])] : List (List Str × Str)),
        e.1 = render (w.1 ++ [w.2]) ∧ e.2.parent = render w.1 ∧ e.2.name = w.2 := by decide +kernel
    have hN : ∀ w ∈ ([([], ['a']), ([['a']], ['x']), ([['a']], ['y']), ([], ['b'])] : List (List Str × Str)),
        Names (w.1 ++ [w.2]) := by unfold Names IsName; decide +kernel
    obtain ⟨w, hw, h1, h2, h3⟩ := key _ h
    exact .inr ⟨w.1, w.2, hN w hw, h1, h2, h3⟩
  order := by
    intro q n h
    have key : ∀ e ∈ exListed, e.2.childOrder.Nodup := by decide +kernel
    exact key _ h

/-- A case of `C137_order_partial`, with the nodes in any order. -/
example (b : Nodes) (h : b.Perm exListed) (fuel : Nat) (start : Str) :
    execOrder b (scan (fun a b => a == b) b) fuel start =
      execOrder exListed (scan (fun a b => a == b) exListed) fuel start := by
  obtain ⟨B, S⟩ := of_perm exListed_ok h
  refine (C137_order_partial exListed_ok B S ?_ ?_ (C46_scan _ _ (by simp)) (C46_scan _ _ (by simp)) fuel start).symm
  · intro ns x n hN h0 hx hn
    have key : ∀ e ∈ exListed, ∀ f ∈ exListed, f.2.parent = e.1 → f.2.name ∈ e.2.childOrder := by decide +kernel
    obtain ⟨m, hm⟩ := mem_keys.1 hx
    rcases exListed_ok.node _ m hm with ⟨h1, _⟩ | ⟨ms, y, h1, h2, h3, h4⟩
    · have := (render_eq_world hN).1 h1
      simp at this
    · have := render_inj hN h1 h2
      obtain ⟨rfl, he⟩ := List.append_inj' this rfl
      cases he
      have := key _ (mem_of_get? hn) _ hm h3
      rw [h4] at this
      exact this
  · intro p n q m s h1 h2 h3 h4 h5 h6
    have key : ∀ e ∈ exListed, (match e.2.execIn with | .str _ => true | _ => false) = true → e.1 = "/b".toList := by
      decide +kernel
    exact (key (p, n) (mem_of_get? h1) (by simp only [h5])).trans (key (q, m) (mem_of_get? h2) (by simp only [h6])).symm

example : exOrderIn exListed.reverse "/a" = some ["/a", "/a/y", "/a/x", "/b"] := by decide +kernel

/-- C137 violated: of two roots to execute after the same root, the first in the layer is executed and the other
one is not.  Saving and loading sorts the nodes. -/
theorem C137_two_next_violation :
    exOrderIn exTwoNext "/a" = some ["/a", "/a/y", "/a/x", "/c"] ∧
    exOrderIn (exTwoNext.take 3 ++ (exTwoNext.drop 3).reverse) "/a" = some ["/a", "/a/y", "/a/x", "/b"] := by
  decide +kernel

/-- C137 violated: children which are not listed run in the order of the layer. -/
theorem C137_unlisted_violation :
    exOrderIn exUnlisted "/a" = some ["/a", "/a/y", "/a/x"] ∧
    exOrderIn (exUnlisted.take 1 ++ (exUnlisted.drop 1).reverse) "/a" = some ["/a", "/a/x", "/a/y"] := by
  decide +kernel

/-- C137 violated: of two start points, the first in the layer is taken. -/
theorem C137_two_starts_violation :
    Start.startPath exTwoNext (fun p => .bool (p.length = 2)) (.other .none) = .ok "/a".toList ∧
    Start.startPath exTwoNext.reverse (fun p => .bool (p.length = 2)) (.other .none) = .ok "/b".toList :=
  ⟨rfl, rfl⟩

end Nxt.Props
