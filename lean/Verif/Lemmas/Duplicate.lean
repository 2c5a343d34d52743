import Verif.Model.Duplicate
import Verif.Spec.Duplicate
import Verif.Props.NodeData
import Verif.Props.Names
import Verif.Props.Path
import Verif.Lemmas.Dict
import Verif.Lemmas.LayerData
/-!
# Lemmas on copying nodes
-/
namespace Nxt.Duplicate
open Dict NodeData LayerData Spec Props Path

/-- The key which a file loader adds to the data is not read. -/
theorem createSpecNode_source (d : Dict Str Val) (v : Val) (layer : Option Str) (parent : Str) :
    createSpecNode (set A_SOURCE_LAYER v d) layer parent false = createSpecNode d layer parent false := by
  have look : ∀ x, x ≠ A_SOURCE_LAYER → get? x (set A_SOURCE_LAYER v d) = get? x d := fun x h => by
    rw [get?_set, if_neg h]
  have h1 : nameData (set A_SOURCE_LAYER v d) = nameData d := by
    unfold nameData; rw [look _ (by decide +kernel)]
  have h2 : userData (set A_SOURCE_LAYER v d) = userData d := by
    unfold userData; rw [look _ (by decide +kernel)]
  have h3 : orderData (set A_SOURCE_LAYER v d) = orderData d := by
    unfold orderData; rw [look _ (by decide +kernel)]
  have h4 : ∀ r, loadInternals (set A_SOURCE_LAYER v d) r = loadInternals d r := by
    intro r
    unfold loadInternals
    have hk : ∀ a ∈ ALL, saveKey a ≠ A_SOURCE_LAYER := by decide +kernel
    have : ∀ (l : List Str), (∀ a ∈ l, a ∈ ALL) → ∀ r : Dict Str Val,
        l.foldl (fun at' a => set a (internalValue (set A_SOURCE_LAYER v d) a) at') r =
        l.foldl (fun at' a => set a (internalValue d a) at') r := by
      intro l
      induction l with
      | nil => intro _ _; rfl
      | cons a l ih =>
        intro hl r
        have e : internalValue (set A_SOURCE_LAYER v d) a = internalValue d a := by
          unfold internalValue
          rw [look _ (hk a (hl a (List.mem_cons_self ..)))]
        rw [List.foldl_cons, List.foldl_cons, e, ih (fun a h => hl a (List.mem_cons_of_mem _ h))]
    exact this ALL (fun _ h => h) r
  unfold createSpecNode
  rw [h1, h2, h3]
  simp only [h4]
  rfl

/-- A copy made below a parent is the node a file would give at the new path. -/
theorem addNode_eq (e : Env) (T : Nodes) (qs : List Str) (x : Str) (h : Names (qs ++ [x])) (d : Dict Str Val) :
    addNode e T (render qs) x d =
      (constructNode e.real (render (qs ++ [x])) d).map
        (fun n => set (render (qs ++ [x])) n (linkParent T (render qs) x)) := by
  obtain ⟨h1, h2, h3, -⟩ := C09_parent_name_join qs x h
  unfold addNode constructNode
  rw [h1, h2, h3, createSpecNode_source]
  cases createSpecNode (set "name".toList (.str x) d) e.real (render qs) false <;> rfl

/-- Linking to a parent changes only its child order. -/
theorem linkParent_spec (T : Nodes) (p x : Str) :
    keys (linkParent T p x) = keys T ∧ (∀ q, q ≠ p → get? q (linkParent T p x) = get? q T) ∧
    (∀ n, get? p T = some n → ∃ n', get? p (linkParent T p x) = some n' ∧
      ∀ a, a ≠ A_CHILD_ORDER → get? a n' = get? a n) := by
  unfold linkParent
  cases hp : get? p T with
  | none => exact ⟨rfl, fun _ _ => rfl, (fun _ h => nomatch h)⟩
  | some pn =>
    simp only
    cases hc : names (getAttr pn A_CHILD_ORDER) with
    | none => exact ⟨rfl, fun _ _ => rfl, fun n hn => by cases hn; exact ⟨pn, hp, fun _ _ => rfl⟩⟩
    | some co =>
      simp only
      by_cases hx : x ∈ co
      · rw [if_pos hx]
        exact ⟨rfl, fun _ _ => rfl, fun n hn => by cases hn; exact ⟨pn, hp, fun _ _ => rfl⟩⟩
      · rw [if_neg hx]
        refine ⟨?_, fun q hq => ?_, fun n hn => ?_⟩
        · rw [keys_set, if_pos (get?_isSome.1 (by rw [hp]; rfl))]
        · rw [get?_set, if_neg hq]
        · cases hn
          exact ⟨_, by rw [get?_set, if_pos rfl], fun a ha => by rw [get?_set, if_neg ha]⟩

theorem ok_linkParent {T : Nodes} (h : Ok T) (p x : Str) : Ok (linkParent T p x) := by
  unfold Ok; rw [(linkParent_spec T p x).1]; exact h

/-- A child which is listed needs no linking. -/
theorem linkParent_listed {T : Nodes} {p x : Str} {n : Dict Str Val} {o : List Str} (h : get? p T = some n)
    (ho : getAttr n A_CHILD_ORDER = .list (o.map Val.str)) (hx : x ∈ o) : linkParent T p x = T := by
  unfold linkParent
  rw [h]
  simp only [ho, names_map]
  exact if_pos hx

/-- The node a file gives from the saved data of a node. -/
theorem construct_copy (e : Env) {n : Dict Str Val} {ns : List Str} {m : Str} {o : List Str} (hns : Names (ns ++ [m]))
    (hn : Ok n) (hco : getAttr n A_CHILD_ORDER = .list (o.map Val.str)) (hnd : o.Nodup)
    (hw : ∃ s, getAttr n A_NAME = .str s ∧ s ≠ ['/']) :
    ∃ n', constructNode e.real (render (ns ++ [m])) (saveNode e.builtins n) = some n' ∧ CopyOf e.builtins n n' ∧ Ok n' ∧
      getAttr n' A_NAME = .str m ∧ getAttr n' A_PARENT = .str (render ns) ∧
      getAttr n' A_CHILD_ORDER = .list (o.map Val.str) := by
  obtain ⟨p1, p2, -⟩ := C09_parent_name_join ns m hns
  obtain ⟨n', h1, hok, h2, h3, h4, h5, h6, h7⟩ := C25_round_trip e.builtins n e.real (render (ns ++ [m])) o hn hco
  obtain ⟨n'', g1, g2, g3, g4, g5, g6, g7⟩ := C25_same_node e.builtins n e.real (render (ns ++ [m])) o hn hco hnd hw
  rw [h1] at g1
  cases g1
  refine ⟨n', h1, ⟨g2, g3, g4, g5, g6, ?_, by rw [g7]; exact hco.symm⟩, hok, ?_, ?_, g7⟩
  · intro a ha ho
    have hT : a ∈ TRACKED := by
      have : opinionAttrs = TRACKED := by decide +kernel
      rwa [this] at ha
    rw [getAttr_of_get? (h4 a hT), keptInternal, if_neg (fun h => by rw [ho] at h; exact absurd h.2 (by decide))]
    have hA : ∀ a ∈ TRACKED, a ≠ A_PARENT := by decide +kernel
    unfold internalDefault
    rw [if_neg (hA a hT)]
    split <;> rfl
  · rw [getAttr_of_get? h6, p2]
  · rw [getAttr_of_get? h7, p1]

/-- The copy of the node at `src ++ rest`, made at `dst ++ rest`. -/
def cp (e : Env) (T : Nodes) (src dst rest : List Str) : Option (Dict Str Val) :=
  (get? (render (src ++ rest)) T).bind
    (fun n => constructNode e.real (render (dst ++ rest)) (saveNode e.builtins n))

/-- What stays fixed while a node is copied from `ps ++ [m]` to `ps ++ [m']`. -/
structure Setting (e : Env) (T T0 : Nodes) (order : List Str → List Str) (ps : List Str) (m m' : Str) : Prop where
  g : Filed T order
  nm : Names (ps ++ [m])
  nm' : IsName m'
  ne : m' ≠ m
  base : ∀ q, q ≠ render ps → get? q T0 = get? q T
  baseAt : ∀ n, get? (render ps) T = some n → ∃ n', get? (render ps) T0 = some n' ∧
    ∀ a, a ≠ A_CHILD_ORDER → get? a n' = get? a n
  keys : keys T0 = keys T
  free : ∀ rest, Names rest → get? (render (ps ++ [m'] ++ rest)) T = none
  legal : ∀ rest n, Names rest → get? (render (ps ++ [m] ++ rest)) T = some n → ∀ x ∈ rest, KeptName e.cc x
  comp : ∀ T1, Grown e.builtins T T1 (ps ++ [m]) (ps ++ [m']) → ∀ rest x, Names (rest ++ [x]) →
    render (ps ++ [m'] ++ (rest ++ [x])) ∈ e.comp T1 → render (ps ++ [m'] ++ (rest ++ [x])) ∈ Dict.keys T1

/-- The nodes after the copies of `S` are made. -/
structure J (e : Env) (T T0 : Nodes) (ps : List Str) (m m' : Str) (S : List Str → Prop) (T1 : Nodes) : Prop where
  ok : Ok T1
  path : ∀ p ∈ keys T1, ∃ ns, Names ns ∧ p = render ns
  out : ∀ ns, Names ns → ¬ (ps ++ [m']) <+: ns → get? (render ns) T1 = get? (render ns) T0
  done : ∀ rest, Names rest → S rest → get? (render (ps ++ [m'] ++ rest)) T1 = cp e T (ps ++ [m]) (ps ++ [m']) rest
  todo : ∀ rest, Names rest → ¬ S rest → get? (render (ps ++ [m'] ++ rest)) T1 = none

variable {e : Env} {T T0 T1 : Nodes} {order : List Str → List Str} {ps : List Str} {m m' : Str}

theorem Setting.np (s : Setting e T T0 order ps m m') : Names ps := (names_append.1 s.nm).1

theorem Setting.nd (s : Setting e T T0 order ps m m') : Names (ps ++ [m']) :=
  names_append.2 ⟨s.np, names_cons.2 ⟨s.nm', names_nil⟩⟩

/-- Copies of nodes exist and are copies. -/
theorem Setting.cp_some (s : Setting e T T0 order ps m m') {rest : List Str} (hr : Names rest) {n : Dict Str Val}
    (hn : get? (render (ps ++ [m] ++ rest)) T = some n) :
    ∃ n', cp e T (ps ++ [m]) (ps ++ [m']) rest = some n' ∧ CopyOf e.builtins n n' ∧ Ok n' ∧
      getAttr n' A_NAME = .str ((ps ++ [m'] ++ rest).getLast?.getD ['/']) ∧
      getAttr n' A_PARENT = .str (parentText (ps ++ [m'] ++ rest)) ∧
      getAttr n' A_CHILD_ORDER = .list ((order (ps ++ [m] ++ rest)).map Val.str) := by
  have hsrc : Names (ps ++ [m] ++ rest) := names_append.2 ⟨s.nm, hr⟩
  have hdst : Names (ps ++ [m'] ++ rest) := names_append.2 ⟨s.nd, hr⟩
  obtain ⟨f1, f2, -, f4, f5⟩ := s.g.node _ n hsrc hn
  have hw : ∃ t, getAttr n A_NAME = .str t ∧ t ≠ ['/'] := by
    refine ⟨_, f2, ?_⟩
    rcases eq_nil_or_snoc (ps ++ [m] ++ rest) with h | ⟨a, x, h⟩
    · simp at h
    · rw [h, List.getLast?_concat, Option.getD_some]
      intro hx
      have := hsrc x (by rw [h]; simp)
      rw [hx] at this
      exact this.2.1 (by simp)
  rcases eq_nil_or_snoc (ps ++ [m'] ++ rest) with h | ⟨a, x, h⟩
  · simp at h
  · obtain ⟨n', c1, c2, c3, c4, c5, c6⟩ := construct_copy e (h ▸ hdst) f1 f4 f5 hw
    refine ⟨n', ?_, c2, c3, ?_, ?_, c6⟩
    · unfold cp; rw [hn, h]; exact c1
    · rw [h, List.getLast?_concat]; exact c4
    · rw [h, c5]; unfold parentText; rw [if_neg (by simp), List.dropLast_concat]

/-- The nodes are those of a layer with copies. -/
theorem J.grown {S : List Str → Prop} (j : J e T T0 ps m m' S T1) (s : Setting e T T0 order ps m m') :
    Grown e.builtins T T1 (ps ++ [m]) (ps ++ [m']) := by
  refine ⟨j.path, fun ns n1 hns h => ?_⟩
  by_cases hp : (ps ++ [m']) <+: ns
  · obtain ⟨rest, rfl⟩ := hp
    have hr := (names_append.1 hns).2
    right
    by_cases hS : S rest
    · rw [j.done rest hr hS] at h
      cases hg : get? (render (ps ++ [m] ++ rest)) T with
      | none => unfold cp at h; rw [hg] at h; cases h
      | some n =>
        obtain ⟨n', c1, c2, -⟩ := s.cp_some hr hg
        rw [c1] at h; cases h
        exact ⟨rest, n, rfl, hg, c2⟩
    · rw [j.todo rest hr hS] at h; cases h
  · left
    rw [j.out ns hns hp] at h
    by_cases hq : render ns = render ps
    · rw [hq] at h ⊢
      cases hg : get? (render ps) T with
      | none =>
        have := get?_eq_none.1 hg
        rw [← s.keys] at this
        rw [get?_eq_none.2 this] at h; cases h
      | some n =>
        obtain ⟨n', c1, c2⟩ := s.baseAt n hg
        rw [c1] at h; cases h
        exact ⟨n, rfl, c2⟩
    · rw [s.base _ hq] at h
      exact ⟨n1, h, fun _ _ => rfl⟩

theorem Setting.src_ne (s : Setting e T T0 order ps m m') (rest : List Str) : ¬ (ps ++ [m']) <+: (ps ++ [m] ++ rest) := by
  rintro ⟨t, ht⟩
  rw [List.append_assoc, List.append_assoc] at ht
  have := List.append_cancel_left ht
  simp only [List.singleton_append, List.cons.injEq] at this
  exact s.ne this.1

/-- The nodes copied from are as they were. -/
theorem J.src {S : List Str → Prop} (j : J e T T0 ps m m' S T1) (s : Setting e T T0 order ps m m') {rest : List Str}
    (hr : Names rest) : get? (render (ps ++ [m] ++ rest)) T1 = get? (render (ps ++ [m] ++ rest)) T := by
  have hN : Names (ps ++ [m] ++ rest) := names_append.2 ⟨s.nm, hr⟩
  rw [j.out _ hN (s.src_ne rest), s.base]
  intro h
  have := congrArg List.length (render_inj hN s.np h)
  simp at this

theorem textAttr_of {n : Dict Str Val} {a t : Str} (h : getAttr n a = .str t) : textAttr n a = t := by
  unfold textAttr; rw [h]

/-- The children of a node copied from. -/
theorem J.kids {S : List Str → Prop} (j : J e T T0 ps m m' S T1) (s : Setting e T T0 order ps m m') {rest : List Str}
    (hr : Names rest) :
    (∀ c ∈ childNodes T1 (render (ps ++ [m] ++ rest)), ∃ x, IsName x ∧ c.1 = render (ps ++ [m] ++ (rest ++ [x])) ∧
      get? (render (ps ++ [m] ++ (rest ++ [x]))) T = some c.2) ∧
    (∀ x n, IsName x → get? (render (ps ++ [m] ++ (rest ++ [x]))) T = some n →
      (render (ps ++ [m] ++ (rest ++ [x])), n) ∈ childNodes T1 (render (ps ++ [m] ++ rest))) ∧
    ((childNodes T1 (render (ps ++ [m] ++ rest))).map Prod.fst).Nodup := by
  have hN : Names (ps ++ [m] ++ rest) := names_append.2 ⟨s.nm, hr⟩
  refine ⟨?_, ?_, ?_⟩
  · rintro ⟨p, n⟩ hc
    unfold childNodes at hc
    rw [List.mem_filter] at hc
    obtain ⟨hm, hp⟩ := hc
    have hp := of_decide_eq_true hp
    obtain ⟨ns, hns, rfl⟩ := j.path p (mem_keys_of_mem hm)
    have hget := get?_of_mem j.ok hm
    -- the parent path of a node of the layer
    have hpar : textAttr n A_PARENT = parentText ns := by
      rcases (j.grown s).2 ns n hns hget with ⟨n0, h0, hs⟩ | ⟨r, n0, rfl, h0, -⟩
      · obtain ⟨-, -, f3, -⟩ := s.g.node ns n0 hns h0
        apply textAttr_of
        unfold getAttr at f3 ⊢
        rw [show A_PARENT = "_parent_path".toList from rfl, hs _ (by decide +kernel)]
        exact f3
      · have hr' := (names_append.1 hns).2
        obtain ⟨n', c1, -, -, -, c5, -⟩ := s.cp_some hr' h0
        by_cases hS : S r
        · rw [j.done r hr' hS, c1] at hget; cases hget
          exact textAttr_of c5
        · rw [j.todo r hr' hS] at hget; cases hget
    simp only at hp
    rw [hpar] at hp
    rcases eq_nil_or_snoc ns with rfl | ⟨l, x, rfl⟩
    · exfalso
      unfold parentText at hp
      rw [if_pos rfl] at hp
      rw [render_ne_nil (by simp)] at hp
      have := slashed_eq_nil.1 hp.symm
      simp at this
    · unfold parentText at hp
      rw [if_neg (by simp), List.dropLast_concat] at hp
      have hl := render_inj (names_append.1 hns).1 hN hp
      subst hl
      have hx := (names_cons.1 (names_append.1 hns).2).1
      have hrx : Names (rest ++ [x]) := names_append.2 ⟨hr, names_cons.2 ⟨hx, names_nil⟩⟩
      refine ⟨x, hx, by rw [← List.append_assoc], ?_⟩
      rw [← j.src s hrx, ← List.append_assoc]
      exact hget
  · intro x n hx hg
    have hrx : Names (rest ++ [x]) := names_append.2 ⟨hr, names_cons.2 ⟨hx, names_nil⟩⟩
    unfold childNodes
    rw [List.mem_filter]
    refine ⟨mem_of_get? (by rw [j.src s hrx]; exact hg), ?_⟩
    obtain ⟨-, -, f3, -⟩ := s.g.node _ n (names_append.2 ⟨s.nm, hrx⟩) hg
    have := textAttr_of f3
    apply decide_eq_true
    show textAttr n "_parent_path".toList = _
    rw [this]
    unfold parentText
    rw [if_neg (by simp), ← List.append_assoc, List.dropLast_concat]
  · unfold childNodes
    exact (List.filter_sublist.map Prod.fst).nodup j.ok

/-- One child is copied under its own name. -/
theorem J.copy {S : List Str → Prop} (j : J e T T0 ps m m' S T1) (s : Setting e T T0 order ps m m') {rest : List Str} {x : Str}
    {n : Dict Str Val} (hr : Names rest) (hx : IsName x) (hn : get? (render (ps ++ [m] ++ (rest ++ [x]))) T = some n)
    (hS : S rest) (hnot : ¬ S (rest ++ [x])) :
    ∃ T2, copyNode e T1 (render (ps ++ [m'] ++ rest)) n = some (T2, render (ps ++ [m'] ++ (rest ++ [x]))) ∧
      J e T T0 ps m m' (fun r => S r ∨ r = rest ++ [x]) T2 := by
  have hrx : Names (rest ++ [x]) := names_append.2 ⟨hr, names_cons.2 ⟨hx, names_nil⟩⟩
  have hsrc := names_append.2 ⟨s.nm, hrx⟩
  have hdst : Names (ps ++ [m'] ++ rest) := names_append.2 ⟨s.nd, hr⟩
  have hdx : Names (ps ++ [m'] ++ rest ++ [x]) := names_append.2 ⟨hdst, names_cons.2 ⟨hx, names_nil⟩⟩
  have hfree : render (ps ++ [m'] ++ (rest ++ [x])) ∉ e.comp T1 := fun h =>
    get?_eq_none.1 (j.todo _ hrx hnot) (s.comp T1 (j.grown s) rest x hrx h)
  obtain ⟨f1, f2, -, f4, f5⟩ := s.g.node _ n hsrc hn
  have hname : textAttr n A_NAME = x := by
    have := textAttr_of f2
    rw [← List.append_assoc, List.getLast?_concat] at this
    exact this
  obtain ⟨⟨c, cs, rfl, hd⟩, hw, hnn⟩ := s.legal (rest ++ [x]) n hrx hn x (by simp)
  have hfn : freeName e T1 (render (ps ++ [m'] ++ rest)) (c :: cs) = some (c :: cs) := by
    have hj : joinNodePath (render (ps ++ [m'] ++ rest)) (c :: cs) ∉ e.comp T1 := by
      rw [(C09_parent_name_join _ _ hdx).2.2.1, List.append_assoc (ps ++ [m'])]; exact hfree
    unfold freeName Names.uniqueNodeName
    rw [C18_wanted e.cc c cs hw hd, if_neg hnn]
    simp only
    rw [if_neg (by simpa using hj)]
  -- the parent lists it
  obtain ⟨np, hnp⟩ : ∃ np, get? (render (ps ++ [m] ++ rest)) T = some np := by
    have h := s.g.whole (ps ++ [m] ++ rest) (c :: cs) (by simp) (by rw [List.append_assoc]; exact hsrc)
      (by rw [List.append_assoc]; exact get?_isSome.1 (by rw [hn]; rfl))
    exact Option.isSome_iff_exists.1 (get?_isSome.2 h)
  have hlist : (c :: cs) ∈ order (ps ++ [m] ++ rest) :=
    s.g.listed (ps ++ [m] ++ rest) (c :: cs) (by simp) (by rw [List.append_assoc]; exact hsrc)
      (by rw [List.append_assoc]; exact get?_isSome.1 (by rw [hn]; rfl))
  obtain ⟨np', g1, -, -, -, -, g6⟩ := s.cp_some hr hnp
  have hpar : get? (render (ps ++ [m'] ++ rest)) T1 = some np' := by rw [j.done rest hr hS, g1]
  have hlink := linkParent_listed hpar g6 hlist
  obtain ⟨n', c1, -⟩ := s.cp_some hrx hn
  have hc1 := c1
  unfold cp at c1
  rw [hn] at c1
  simp only [Option.bind_some] at c1
  refine ⟨set (render (ps ++ [m'] ++ (rest ++ [c :: cs]))) n' T1, ?_, ?_⟩
  · unfold copyNode
    rw [hname, hfn]
    simp only
    rw [addNode_eq e T1 _ _ hdx, hlink, List.append_assoc (ps ++ [m']), c1]
    simp only [Option.map_some]
    rw [(C09_parent_name_join _ _ hdx).2.2.1, List.append_assoc (ps ++ [m'])]
  · have hnd : Names (ps ++ [m'] ++ (rest ++ [c :: cs])) := by rw [← List.append_assoc]; exact hdx
    refine ⟨ok_set j.ok _ _, ?_, ?_, ?_, ?_⟩
    · intro p hp
      rcases mem_keys_set.1 hp with rfl | hp
      · exact ⟨_, hnd, rfl⟩
      · exact j.path p hp
    · intro ns hns hp
      rw [get?_set, if_neg, j.out ns hns hp]
      intro h
      have := render_inj hns hnd h
      exact hp (this ▸ List.prefix_append _ _)
    · intro r hr' hS'
      by_cases he : r = rest ++ [c :: cs]
      · subst he
        rw [get?_set, if_pos rfl, hc1]
      · rw [get?_set, if_neg, j.done r hr' (hS'.resolve_right he)]
        intro h
        exact he (List.append_cancel_left (render_inj (names_append.2 ⟨s.nd, hr'⟩) hnd h))
    · intro r hr' hS'
      rw [not_or] at hS'
      rw [get?_set, if_neg, j.todo r hr' hS'.1]
      intro h
      exact hS'.2 (List.append_cancel_left (render_inj (names_append.2 ⟨s.nd, hr'⟩) hnd h))

theorem J.congr {S S' : List Str → Prop} (j : J e T T0 ps m m' S T1) (h : ∀ r, Names r → (S' r ↔ S r) ∨
    (get? (render (ps ++ [m] ++ r)) T = none ∧ (S r → S' r) )) : J e T T0 ps m m' S' T1 := by
  refine ⟨j.ok, j.path, j.out, fun r hr hS => ?_, fun r hr hS => ?_⟩
  · rcases h r hr with h | ⟨h1, h2⟩
    · exact j.done r hr (h.1 hS)
    · by_cases hs : S r
      · exact j.done r hr hs
      · rw [j.todo r hr hs]; unfold cp; rw [h1]; rfl
  · rcases h r hr with h | ⟨h1, h2⟩
    · exact j.todo r hr (fun hs => hS (h.2 hs))
    · exact j.todo r hr (fun hs => hS (h2 hs))

/-- The loop over the children, when the call for their own children works. -/
theorem fold_spec (s : Setting e T T0 order ps m m') (rec : Nodes → Str → Str → Option (Nodes × List Str))
    {rest : List Str} (hr : Names rest) (K : List (Str × Dict Str Val))
    (ih : ∀ (T1 : Nodes) (S : List Str → Prop) (x : Str) (n : Dict Str Val), IsName x → J e T T0 ps m m' S T1 →
      get? (render (ps ++ [m] ++ (rest ++ [x]))) T = some n → S (rest ++ [x]) → (∀ y r, ¬ S (rest ++ [x] ++ y :: r)) →
      ∃ T2 made, rec T1 (render (ps ++ [m'] ++ (rest ++ [x]))) (render (ps ++ [m] ++ (rest ++ [x]))) = some (T2, made) ∧
        J e T T0 ps m m' (fun r => S r ∨ ∃ y t, r = rest ++ [x] ++ y :: t) T2 ∧ made.Nodup ∧
        ∀ q, q ∈ made ↔ ∃ y t n, Names (y :: t) ∧ get? (render (ps ++ [m] ++ (rest ++ [x] ++ y :: t))) T = some n ∧
          q = render (ps ++ [m'] ++ (rest ++ [x] ++ y :: t))) :
    ∀ (T1 : Nodes) (S : List Str → Prop) (made : List Str), J e T T0 ps m m' S T1 → S rest →
      (∀ c ∈ K, ∃ x, IsName x ∧ c.1 = render (ps ++ [m] ++ (rest ++ [x])) ∧
        get? (render (ps ++ [m] ++ (rest ++ [x]))) T = some c.2) →
      (K.map Prod.fst).Nodup →
      (∀ x, IsName x → render (ps ++ [m] ++ (rest ++ [x])) ∈ K.map Prod.fst → ∀ t, ¬ S (rest ++ x :: t)) →
      ∃ T2 more, K.foldl (dupeStep e (render (ps ++ [m'] ++ rest)) rec) (some (T1, made)) = some (T2, made ++ more) ∧
        J e T T0 ps m m' (fun r => S r ∨ ∃ x t, IsName x ∧ render (ps ++ [m] ++ (rest ++ [x])) ∈ K.map Prod.fst ∧
          r = rest ++ x :: t) T2 ∧ more.Nodup ∧
        ∀ q, q ∈ more ↔ ∃ x t n, IsName x ∧ render (ps ++ [m] ++ (rest ++ [x])) ∈ K.map Prod.fst ∧ Names t ∧
          get? (render (ps ++ [m] ++ (rest ++ x :: t))) T = some n ∧ q = render (ps ++ [m'] ++ (rest ++ x :: t)) := by
  induction K with
  | nil =>
    intro T1 S made j hS _ _ _
    refine ⟨T1, [], by simp, j.congr (fun r _ => .inl ?_), List.nodup_nil, ?_⟩
    · simp
    · simp
  | cons c K ihK =>
    intro T1 S made j hS hK hnd hno
    obtain ⟨x, hx, hc1, hc2⟩ := hK c (List.mem_cons_self ..)
    have hrx : Names (rest ++ [x]) := names_append.2 ⟨hr, names_cons.2 ⟨hx, names_nil⟩⟩
    rw [List.map_cons, List.nodup_cons] at hnd
    have hinj : ∀ y, IsName y → render (ps ++ [m] ++ (rest ++ [y])) = render (ps ++ [m] ++ (rest ++ [x])) → y = x := by
      intro y hy h
      have hry : Names (rest ++ [y]) := names_append.2 ⟨hr, names_cons.2 ⟨hy, names_nil⟩⟩
      have := render_inj (names_append.2 ⟨s.nm, hry⟩) (names_append.2 ⟨s.nm, hrx⟩) h
      simpa using this
    have hin : render (ps ++ [m] ++ (rest ++ [x])) ∈ (c :: K).map Prod.fst := by rw [List.map_cons, hc1]; simp
    obtain ⟨Ta, a1, a2⟩ := j.copy s hr hx hc2 hS (hno x hx hin [])
    obtain ⟨Tb, mb, b1, b2, b3, b4⟩ := ih Ta _ x c.2 hx a2 hc2 (.inr rfl) (by
      intro y r h
      rcases h with h | h
      · rw [List.append_assoc] at h; exact hno x hx hin (y :: r) h
      · have := congrArg List.length h; simp at this)
    have hsub : ∀ y, IsName y → render (ps ++ [m] ++ (rest ++ [y])) ∈ K.map Prod.fst → y ≠ x := by
      rintro y hy hm rfl
      exact hnd.1 (hc1 ▸ hm)
    obtain ⟨T2, more, c1, c2, c3, c4⟩ := ihK Tb _ (made ++ [render (ps ++ [m'] ++ (rest ++ [x]))] ++ mb) b2 (.inl (.inl hS))
      (fun d hd => hK d (List.mem_cons_of_mem _ hd)) hnd.2 (by
        intro y hy hm t h
        rcases h with (h | h) | ⟨z, t', h⟩
        · exact hno y hy (List.mem_cons_of_mem _ hm) t h
        · have := List.append_cancel_left h
          simp only [List.cons.injEq] at this
          exact hsub y hy hm this.1
        · rw [List.append_assoc] at h
          have := List.append_cancel_left h
          simp only [List.singleton_append, List.cons.injEq] at this
          exact hsub y hy hm this.1)
    refine ⟨T2, render (ps ++ [m'] ++ (rest ++ [x])) :: (mb ++ more), ?_, ?_, ?_, ?_⟩
    · rw [List.foldl_cons]
      have : dupeStep e (render (ps ++ [m'] ++ rest)) rec (some (T1, made)) c =
          some (Tb, made ++ [render (ps ++ [m'] ++ (rest ++ [x]))] ++ mb) := by
        unfold dupeStep
        simp only [a1]
        rw [hc1, b1]
      rw [this, c1]
      simp
    · refine c2.congr (fun r _ => .inl ?_)
      constructor
      · rintro (h | ⟨y, t, hy, hm, rfl⟩)
        · exact .inl (.inl (.inl h))
        · rw [List.map_cons, List.mem_cons] at hm
          rcases hm with hm | hm
          · have := hinj y hy (hm.trans hc1)
            subst this
            cases t with
            | nil => exact .inl (.inl (.inr rfl))
            | cons z t => exact .inl (.inr ⟨z, t, by simp⟩)
          · exact .inr ⟨y, t, hy, hm, rfl⟩
      · rintro (((h | h) | ⟨z, t, h⟩) | ⟨y, t, hy, hm, h⟩)
        · exact .inl h
        · exact .inr ⟨x, [], hx, hin, h⟩
        · exact .inr ⟨x, z :: t, hx, hin, by rw [h]; simp⟩
        · exact .inr ⟨y, t, hy, List.mem_cons_of_mem _ hm, h⟩
    · have hdinj : ∀ a b, Names a → Names b → render (ps ++ [m'] ++ a) = render (ps ++ [m'] ++ b) → a = b :=
        fun a b ha hb h => List.append_cancel_left (render_inj (names_append.2 ⟨s.nd, ha⟩) (names_append.2 ⟨s.nd, hb⟩) h)
      rw [List.nodup_cons, List.nodup_append]
      refine ⟨?_, b3, c3, ?_⟩
      · rw [List.mem_append]
        rintro (h | h)
        · obtain ⟨y, t, n, hn, -, he⟩ := (b4 _).1 h
          have := hdinj _ _ hrx (names_append.2 ⟨hrx, hn⟩) he
          have := congrArg List.length this
          simp at this
        · obtain ⟨y, t, n, hy, hm, ht, -, he⟩ := (c4 _).1 h
          have := hdinj _ _ hrx (names_append.2 ⟨hr, names_cons.2 ⟨hy, ht⟩⟩) he
          have := List.append_cancel_left this
          simp only [List.cons.injEq] at this
          exact hsub y hy hm this.1.symm
      · intro q hq q' hq' heq
        subst heq
        obtain ⟨y, t, n, hn, -, he⟩ := (b4 _).1 hq
        obtain ⟨y', t', n', hy, hm, ht, -, he'⟩ := (c4 _).1 hq'
        rw [he] at he'
        have := hdinj _ _ (names_append.2 ⟨hrx, hn⟩) (names_append.2 ⟨hr, names_cons.2 ⟨hy, ht⟩⟩) he'
        rw [List.append_assoc] at this
        have := List.append_cancel_left this
        simp only [List.singleton_append, List.cons.injEq] at this
        exact hsub y' hy hm this.1.symm
    · intro q
      rw [List.mem_cons, List.mem_append, b4, c4]
      constructor
      · rintro (rfl | ⟨y, t, n, hn, hg, rfl⟩ | ⟨y, t, n, hy, hm, ht, hg, rfl⟩)
        · exact ⟨x, [], c.2, hx, hin, names_nil, hc2, rfl⟩
        · exact ⟨x, y :: t, n, hx, hin, hn, by simpa using hg, by simp⟩
        · exact ⟨y, t, n, hy, List.mem_cons_of_mem _ hm, ht, hg, rfl⟩
      · rintro ⟨y, t, n, hy, hm, ht, hg, rfl⟩
        rw [List.map_cons, List.mem_cons] at hm
        rcases hm with hm | hm
        · have := hinj y hy (hm.trans hc1)
          subst this
          cases t with
          | nil => exact .inl rfl
          | cons z t => exact .inr (.inl ⟨z, t, n, ht, by simpa using hg, by simp⟩)
        · exact .inr (.inr ⟨y, t, n, hy, hm, ht, hg, rfl⟩)

/-- The nodes above a node are there. -/
theorem Filed_prefix (g : Filed T order) {ns : List Str} (h0 : ns ≠ []) :
    ∀ r, Names (ns ++ r) → render (ns ++ r) ∈ keys T → render ns ∈ keys T := by
  intro r
  induction hl : r.length generalizing r with
  | zero => intro _ h; rw [List.length_eq_zero_iff.1 hl, List.append_nil] at h; exact h
  | succ k ih =>
    intro hn h
    rcases eq_nil_or_snoc r with rfl | ⟨a, x, rfl⟩
    · simp at hl
    · rw [← List.append_assoc] at hn h
      exact ih a (by simpa using hl) (names_append.1 hn).1 (g.whole _ x (by simp [h0]) hn h)

/-- The descendants are copied. -/
theorem dupe_spec (s : Setting e T T0 order ps m m') (fuel : Nat) :
    ∀ (T1 : Nodes) (S : List Str → Prop) (rest : List Str) (n : Dict Str Val), Names rest → J e T T0 ps m m' S T1 →
      get? (render (ps ++ [m] ++ rest)) T = some n → S rest → (∀ x r, ¬ S (rest ++ x :: r)) →
      (∀ r n, Names r → get? (render (ps ++ [m] ++ (rest ++ r))) T = some n → r.length < fuel) →
      ∃ T2 made, dupe e fuel T1 (render (ps ++ [m'] ++ rest)) (render (ps ++ [m] ++ rest)) = some (T2, made) ∧
        J e T T0 ps m m' (fun r => S r ∨ ∃ x t, r = rest ++ x :: t) T2 ∧ made.Nodup ∧
        ∀ q, q ∈ made ↔ ∃ x t n, Names (x :: t) ∧ get? (render (ps ++ [m] ++ (rest ++ x :: t))) T = some n ∧
          q = render (ps ++ [m'] ++ (rest ++ x :: t)) := by
  induction fuel with
  | zero =>
    intro T1 S rest n hr j hn hS _ hf
    exact absurd (hf [] n names_nil (by rw [List.append_nil]; exact hn)) (by simp)
  | succ fuel ih =>
    intro T1 S rest n hr j hn hS hno hf
    obtain ⟨k1, k2, k3⟩ := j.kids s hr
    have hin : ∀ x t n, Names (x :: t) → get? (render (ps ++ [m] ++ (rest ++ x :: t))) T = some n →
        render (ps ++ [m] ++ (rest ++ [x])) ∈ (childNodes T1 (render (ps ++ [m] ++ rest))).map Prod.fst := by
      intro x t n hN hg
      have hx := (names_cons.1 hN).1
      have hrx : Names (rest ++ [x]) := names_append.2 ⟨hr, names_cons.2 ⟨hx, names_nil⟩⟩
      have hmem : render (ps ++ [m] ++ (rest ++ [x])) ∈ keys T := by
        apply Filed_prefix s.g (by simp) t
        · exact names_append.2 ⟨names_append.2 ⟨s.nm, hrx⟩, (names_cons.1 hN).2⟩
        · have : ps ++ [m] ++ (rest ++ [x]) ++ t = ps ++ [m] ++ (rest ++ x :: t) := by simp
          rw [this]
          exact get?_isSome.1 (by rw [hg]; rfl)
      obtain ⟨n', hn'⟩ := Option.isSome_iff_exists.1 (get?_isSome.2 hmem)
      exact List.mem_map.2 ⟨_, k2 x n' hx hn', rfl⟩
    obtain ⟨T2, more, h1, h2, h3, h4⟩ := fold_spec s (dupe e fuel) hr (childNodes T1 (render (ps ++ [m] ++ rest)))
      (by
        intro T1 S x n hx j hn hS hno
        refine ih T1 S (rest ++ [x]) n (names_append.2 ⟨hr, names_cons.2 ⟨hx, names_nil⟩⟩) j hn hS hno ?_
        intro r n' hr' hg
        have := hf (x :: r) n' (names_cons.2 ⟨hx, hr'⟩) (by
          rw [show rest ++ x :: r = rest ++ [x] ++ r from by simp]; exact hg)
        simpa using this)
      T1 S [] j hS k1 k3 (fun x _ _ t => hno x t)
    refine ⟨T2, more, h1, h2.congr (fun r hr' => ?_), h3, fun q => ?_⟩
    · by_cases hx : ∃ x t, r = rest ++ x :: t
      · obtain ⟨x, t, rfl⟩ := hx
        have hN : Names (x :: t) := (names_append.1 hr').2
        cases hg : get? (render (ps ++ [m] ++ (rest ++ x :: t))) T with
        | some n =>
          left
          exact ⟨fun _ => .inr ⟨x, t, (names_cons.1 hN).1, hin x t n hN hg, rfl⟩, fun _ => .inr ⟨x, t, rfl⟩⟩
        | none => right; exact ⟨rfl, fun _ => .inr ⟨x, t, rfl⟩⟩
      · left
        constructor
        · rintro (h | h)
          · exact .inl h
          · exact absurd h hx
        · rintro (h | ⟨x, t, -, -, h⟩)
          · exact .inl h
          · exact absurd ⟨x, t, h⟩ hx
    · rw [h4]
      constructor
      · rintro ⟨x, t, n, hx, -, ht, hg, rfl⟩
        exact ⟨x, t, n, names_cons.2 ⟨hx, ht⟩, hg, rfl⟩
      · rintro ⟨x, t, n, hN, hg, rfl⟩
        exact ⟨x, t, n, (names_cons.1 hN).1, hin x t n hN hg, (names_cons.1 hN).2, hg, rfl⟩

end Nxt.Duplicate
