import Verif.Lemmas.Duplicate
import Verif.Lemmas.Edit
import Verif.Model.Proxies
/-!
# Properties C107, C108: copies of nodes, hierarchies of nodes
-/
namespace Nxt.Props
open Dict NodeData LayerData Spec Path Duplicate

/-! ## C107 -/

/-- The first copy: the node itself, at a free name beside it. -/
theorem root_copy (e : Env) (hcc : e.cc.Ok) (T : Nodes) (order : List Str → List Str) (g : Filed T order)
    (ps : List Str) (m : Str) (hm : Names (ps ++ [m])) (n : Dict Str Val)
    (hn : get? (render (ps ++ [m])) T = some n) (hsees : ∀ p ∈ keys T, p ∈ e.comp T)
    (hrounds : (e.comp T).length + 2 ≤ e.rounds) :
    ∃ m' n', IsName m' ∧ render (ps ++ [m']) ∉ e.comp T ∧
      dupeParent e T n = some (T, render ps, []) ∧ textAttr n A_PARENT = render ps ∧
      constructNode e.real (render (ps ++ [m'])) (saveNode e.builtins n) = some n' ∧
      copyNode e T (render ps) n =
        some (set (render (ps ++ [m'])) n' (linkParent T (render ps) m'), render (ps ++ [m'])) := by
  have hps := (names_append.1 hm).1
  have hmn := (names_cons.1 (names_append.1 hm).2).1
  obtain ⟨f1, f2, f3, f4, f5⟩ := g.node _ n hm hn
  have hkey : render (ps ++ [m]) ∈ keys T := get?_isSome.1 (by rw [hn]; rfl)
  rw [List.getLast?_concat, Option.getD_some] at f2
  unfold parentText at f3
  rw [if_neg (by simp), List.dropLast_concat] at f3
  obtain ⟨want, m', -, h2, h3, -, h5, -⟩ :=
    C18_unique_node_name e.cc hcc (e.comp T) ps hps (some m) (by simp [hmn.1]) e.rounds hrounds
  have hd : Names (ps ++ [m']) := names_append.2 ⟨hps, names_cons.2 ⟨h3, names_nil⟩⟩
  obtain ⟨n', c1, -⟩ := construct_copy e hd f1 f4 f5 ⟨m, f2, fun h => hmn.2.1 (by rw [h]; simp)⟩
  have hpar : textAttr n A_PARENT = render ps := textAttr_of f3
  refine ⟨m', n', h3, h5, ?_, hpar, c1, ?_⟩
  · unfold dupeParent
    simp only [hpar]
    have hne : render ps ≠ [] := by
      by_cases h : ps = []
      · rw [h]; decide
      · rw [render_ne_nil h]; exact fun h' => h (slashed_eq_nil.1 h')
    rw [if_neg hne]
    by_cases h : ps = []
    · subst h; exact if_pos rfl
    · have hp := g.whole ps m h hm hkey
      rw [if_neg (by rw [render_eq_world hps]; exact h), if_pos (get?_isSome.2 hp)]
  · unfold copyNode freeName
    rw [show textAttr n A_NAME = m from textAttr_of f2, h2]
    simp only
    rw [addNode_eq e T ps m' hd, c1]
    simp only [Option.map_some]
    rw [(C09_parent_name_join ps m' hd).2.2.1]

/-- What is known of the parent of a new child: nothing but its child order changes, which ends with the new
name unless it was listed before. -/
theorem link_parent_order (T : Nodes) (order : List Str → List Str) (g : Filed T order) (ps : List Str) (hps : Names ps)
    (x : Str) (pn : Dict Str Val) (hp : get? (render ps) T = some pn) :
    ∃ pn', get? (render ps) (linkParent T (render ps) x) = some pn' ∧
      (∀ a, a ≠ "_child_order".toList → get? a pn' = get? a pn) ∧
      getAttr pn' "_child_order".toList =
        .list ((if x ∈ order ps then order ps else order ps ++ [x]).map Val.str) := by
  obtain ⟨-, -, -, f4, f5⟩ := g.node _ pn hps hp
  by_cases hx : x ∈ order ps
  · refine ⟨pn, ?_, fun _ _ => rfl, by rw [if_pos hx]; exact f4⟩
    rw [linkParent_listed hp f4 hx]; exact hp
  · rw [if_neg hx]
    unfold linkParent
    rw [hp]
    simp only [show A_CHILD_ORDER = "_child_order".toList from rfl, f4, names_map]
    rw [if_neg hx, C15_disjoint _ _ f5 (by intro y hy; rw [List.mem_singleton] at hy; subst hy; exact hx)]
    refine ⟨_, by rw [get?_set, if_pos rfl], fun a ha => by rw [get?_set, if_neg ha], ?_⟩
    apply getAttr_of_get?
    rw [get?_set, if_pos rfl]

/-- C107, as far as it holds: a node of the layer is duplicated with all nodes below it.  The new root is
beside the old one at a path which is free in the whole composition; below it there is, for each node below
the old root, a copy with the same names from there on, and nothing else.  No other node changes, except that
the parent lists the new root at its end.  The paths reported are those of the copies, each once, the new
root first.

It is asked that names below the root are such that the naming rules leave them alone, that the layer
has no gaps (a node with no node above it other than the world), and that the composition shows no
other nodes than the copies below the new root; see the violations. -/
theorem C107_copies_partial (e : Env) (hcc : e.cc.Ok) (T : Nodes) (order : List Str → List Str) (g : Filed T order)
    (ps : List Str) (m : Str) (hm : Names (ps ++ [m])) (n : Dict Str Val)
    (hn : get? (render (ps ++ [m])) T = some n) (hsees : ∀ p ∈ keys T, p ∈ e.comp T)
    (hrounds : (e.comp T).length + 2 ≤ e.rounds) (fuel : Nat)
    (hfuel : ∀ ns, Names ns → render ns ∈ keys T → ns.length ≤ fuel)
    (hlegal : ∀ rest, Names rest → render (ps ++ [m] ++ rest) ∈ keys T → ∀ x ∈ rest, KeptName e.cc x)
    (hcomp : ∀ m' T1, IsName m' → render (ps ++ [m']) ∉ e.comp T → Grown e.builtins T T1 (ps ++ [m]) (ps ++ [m']) →
      ∀ rest x, Names (rest ++ [x]) → render (ps ++ [m'] ++ (rest ++ [x])) ∈ e.comp T1 →
        render (ps ++ [m'] ++ (rest ++ [x])) ∈ keys T1) :
    ∃ m' T' made, duplicate e fuel T n (some (render (ps ++ [m]))) true = some (T', made) ∧
      IsName m' ∧ render (ps ++ [m']) ∉ e.comp T ∧
      (∀ rest n, Names rest → get? (render (ps ++ [m] ++ rest)) T = some n →
        ∃ n', get? (render (ps ++ [m'] ++ rest)) T' = some n' ∧ CopyOf e.builtins n n' ∧
          getAttr n' "_name".toList = .str ((m' :: rest).getLast?.getD []) ∧
          getAttr n' "_parent_path".toList = .str (render (ps ++ [m'] ++ rest).dropLast)) ∧
      (∀ rest, Names rest → get? (render (ps ++ [m] ++ rest)) T = none →
        get? (render (ps ++ [m'] ++ rest)) T' = none) ∧
      (∀ ns, Names ns → ¬ (ps ++ [m']) <+: ns → ns ≠ ps → get? (render ns) T' = get? (render ns) T) ∧
      (get? (render ps) T = none → get? (render ps) T' = none) ∧
      (∀ pn, get? (render ps) T = some pn → ∃ pn', get? (render ps) T' = some pn' ∧
        (∀ a, a ≠ "_child_order".toList → get? a pn' = get? a pn) ∧
        getAttr pn' "_child_order".toList =
          .list ((if m' ∈ order ps then order ps else order ps ++ [m']).map Val.str)) ∧
      (∀ p ∈ keys T', ∃ ns, Names ns ∧ p = render ns) ∧
      made.head? = some (render (ps ++ [m'])) ∧ made.Nodup ∧
      ∀ q, q ∈ made ↔ ∃ rest, Names rest ∧ render (ps ++ [m] ++ rest) ∈ keys T ∧ q = render (ps ++ [m'] ++ rest) := by
  have hps := (names_append.1 hm).1
  obtain ⟨m', n', h1, h2, h3, h4, h5, h6⟩ := root_copy e hcc T order g ps m hm n hn hsees hrounds
  have hd : Names (ps ++ [m']) := names_append.2 ⟨hps, names_cons.2 ⟨h1, names_nil⟩⟩
  obtain ⟨l1, l2, l3⟩ := linkParent_spec T (render ps) m'
  have hkey : render (ps ++ [m]) ∈ keys T := get?_isSome.1 (by rw [hn]; rfl)
  have s : Setting e T (linkParent T (render ps) m') order ps m m' := by
    refine ⟨g, hm, h1, ?_, l2, l3, l1, ?_, ?_, ?_⟩
    · rintro rfl; exact h2 (hsees _ hkey)
    · intro rest hr
      apply get?_eq_none.2
      intro h
      have := Filed_prefix g (ns := ps ++ [m']) (by simp) rest (names_append.2 ⟨hd, hr⟩) h
      exact h2 (hsees _ this)
    · intro rest n hr hg
      exact hlegal rest hr (get?_isSome.1 (by rw [hg]; rfl))
    · exact fun T1 hT1 => hcomp m' T1 h1 h2 hT1
  have hT0 : get? (render (ps ++ [m'])) (linkParent T (render ps) m') = none :=
    get?_eq_none.2 (by rw [l1]; exact fun h => h2 (hsees _ h))
  have j : J e T (linkParent T (render ps) m') ps m m' (fun r => r = [])
      (set (render (ps ++ [m'])) n' (linkParent T (render ps) m')) := by
    refine ⟨ok_set (ok_linkParent g.ok _ _) _ _, ?_, ?_, ?_, ?_⟩
    · intro p hp
      rcases mem_keys_set.1 hp with rfl | hp
      · exact ⟨_, hd, rfl⟩
      · exact g.path p (l1 ▸ hp)
    · intro ns hns hp
      rw [get?_set, if_neg]
      intro h
      exact hp (render_inj hns hd h ▸ List.prefix_refl _)
    · rintro rest hr rfl
      unfold cp
      rw [List.append_nil, List.append_nil, get?_set, if_pos rfl, hn]
      exact h5.symm
    · intro rest hr hne
      have hN : Names (ps ++ [m'] ++ rest) := names_append.2 ⟨hd, hr⟩
      rw [get?_set, if_neg, l2]
      · exact s.free rest hr
      · intro h
        have := congrArg List.length (render_inj hN hps h)
        simp at this
      · intro h
        have := render_inj hN hd h
        exact hne (List.append_cancel_left (this.trans (List.append_nil _).symm))
  obtain ⟨T2, more, d1, d2, d3, d4⟩ := dupe_spec s fuel _ _ [] n names_nil j (by rw [List.append_nil]; exact hn) rfl
    (fun x r h => by simp at h) (by
      intro r n hr hg
      have := hfuel _ (names_append.2 ⟨hm, hr⟩) (get?_isSome.1 (by rw [List.nil_append] at hg; rw [hg]; rfl))
      simp at this
      omega)
  rw [List.append_nil, List.append_nil] at d1
  have hall : ∀ rest, Names rest → get? (render (ps ++ [m'] ++ rest)) T2 = cp e T (ps ++ [m]) (ps ++ [m']) rest := by
    intro rest hr
    apply d2.done rest hr
    cases rest with
    | nil => exact .inl rfl
    | cons x t => exact .inr ⟨x, t, rfl⟩
  have hpne : ¬ (ps ++ [m']) <+: ps := fun h => by
    have := h.length_le
    simp at this
    omega
  refine ⟨m', T2, render (ps ++ [m']) :: more, ?_, h1, h2, ?_, ?_, ?_, ?_, ?_, d2.path, rfl, ?_, ?_⟩
  · unfold duplicate
    simp only [h3, h6]
    have hne : (textAttr n A_PARENT).isEmpty = false := by
      rw [h4]
      by_cases h : ps = []
      · rw [h]; rfl
      · rw [render_ne_nil h]
        cases hs : slashed ps with
        | nil => exact absurd (slashed_eq_nil.1 hs) h
        | cons _ _ => rfl
    rw [hne]
    simp only [Bool.not_false, Bool.and_self, if_true]
    rw [d1]
    simp
  · intro rest n hr hg
    obtain ⟨c, c1, c2, -, c4, c5, -⟩ := s.cp_some hr hg
    refine ⟨c, by rw [hall rest hr, c1], c2, ?_, ?_⟩
    · rw [show "_name".toList = A_NAME from rfl, c4]
      congr 1
      rw [List.append_assoc, List.singleton_append, List.getLast?_append, List.getLast?_cons]
      rfl
    · rw [show "_parent_path".toList = A_PARENT from rfl, c5]
      unfold parentText
      rw [if_neg (by simp)]
  · intro rest hr hg
    rw [hall rest hr]
    unfold cp
    rw [hg]; rfl
  · intro ns hns hp hne
    rw [d2.out ns hns hp, l2]
    exact fun h => hne (render_inj hns hps h)
  · intro h
    rw [d2.out ps hps hpne]
    exact get?_eq_none.2 (by rw [l1]; exact get?_eq_none.1 h)
  · intro pn h
    rw [d2.out ps hps hpne]
    exact link_parent_order T order g ps hps m' pn h
  · rw [List.nodup_cons]
    refine ⟨?_, d3⟩
    intro h
    obtain ⟨x, t, -, hN, -, he⟩ := (d4 _).1 h
    have := render_inj hd (names_append.2 ⟨hd, hN⟩) he
    have := congrArg List.length this
    simp at this
  · intro q
    rw [List.mem_cons, d4]
    constructor
    · rintro (rfl | ⟨x, t, n, hN, hg, rfl⟩)
      · exact ⟨[], names_nil, by rw [List.append_nil]; exact hkey, by rw [List.append_nil]⟩
      · exact ⟨x :: t, hN, get?_isSome.1 (by rw [List.nil_append] at hg; rw [hg]; rfl), rfl⟩
    · rintro ⟨rest, hN, hk, rfl⟩
      cases rest with
      | nil => exact .inl (by rw [List.append_nil])
      | cons x t =>
        obtain ⟨n, hg⟩ := Option.isSome_iff_exists.1 (get?_isSome.2 hk)
        exact .inr ⟨x, t, n, hN, hg, rfl⟩

/-- C107 on a stage without instances: the composition has the nodes of this layer and those of the other
layers, which have no gaps either. -/
theorem C107_no_instances_partial (e : Env) (hcc : e.cc.Ok) (T : Nodes) (order : List Str → List Str) (g : Filed T order)
    (others : List Str) (hcomp : ∀ T1 p, p ∈ e.comp T1 ↔ p ∈ keys T1 ∨ p ∈ others)
    (hothers : ∀ ns x, ns ≠ [] → Names (ns ++ [x]) → render (ns ++ [x]) ∈ others → render ns ∈ others)
    (ps : List Str) (m : Str) (hm : Names (ps ++ [m])) (n : Dict Str Val)
    (hn : get? (render (ps ++ [m])) T = some n)
    (hrounds : (e.comp T).length + 2 ≤ e.rounds) (fuel : Nat)
    (hfuel : ∀ ns, Names ns → render ns ∈ keys T → ns.length ≤ fuel)
    (hlegal : ∀ rest, Names rest → render (ps ++ [m] ++ rest) ∈ keys T → ∀ x ∈ rest, KeptName e.cc x) :
    ∃ m' T' made, duplicate e fuel T n (some (render (ps ++ [m]))) true = some (T', made) ∧
      IsName m' ∧ render (ps ++ [m']) ∉ keys T ∧ render (ps ++ [m']) ∉ others ∧
      (∀ rest, Names rest → match get? (render (ps ++ [m] ++ rest)) T with
        | none => get? (render (ps ++ [m'] ++ rest)) T' = none
        | some n => ∃ n', get? (render (ps ++ [m'] ++ rest)) T' = some n' ∧ CopyOf e.builtins n n') ∧
      (∀ ns, Names ns → ¬ (ps ++ [m']) <+: ns → ns ≠ ps → get? (render ns) T' = get? (render ns) T) := by
  have hall : ∀ ns, ns ≠ [] → ∀ r, Names (ns ++ r) → render (ns ++ r) ∈ others → render ns ∈ others := by
    intro ns h0 r
    induction hl : r.length generalizing r with
    | zero => intro _ h; rw [List.length_eq_zero_iff.1 hl, List.append_nil] at h; exact h
    | succ k ih =>
      intro hN h
      rcases eq_nil_or_snoc r with rfl | ⟨a, x, rfl⟩
      · simp at hl
      · rw [← List.append_assoc] at hN h
        exact ih a (by simpa using hl) (names_append.1 hN).1 (hothers _ x (by simp [h0]) hN h)
  obtain ⟨m', T', made, h1, h2, h3, h4, h5, h6, -⟩ := C107_copies_partial e hcc T order g ps m hm n hn
    (fun p hp => (hcomp T p).2 (.inl hp)) hrounds fuel hfuel hlegal (by
      intro m' T1 hm' hfree _ rest x hN h
      rcases (hcomp T1 _).1 h with h | h
      · exact h
      · exfalso
        apply hfree
        apply (hcomp T _).2 (.inr _)
        refine hall (ps ++ [m']) (by simp) (rest ++ [x]) ?_ h
        exact names_append.2 ⟨names_append.2 ⟨(names_append.1 hm).1, names_cons.2 ⟨hm', names_nil⟩⟩, hN⟩)
  rw [hcomp, not_or] at h3
  refine ⟨m', T', made, h1, h2, h3.1, h3.2, fun rest hr => ?_, h6⟩
  cases hg : get? (render (ps ++ [m] ++ rest)) T with
  | none => exact h5 rest hr hg
  | some n0 =>
    obtain ⟨n', a, b, -⟩ := h4 rest n0 hr hg
    exact ⟨n', a, b⟩

/-- C107 without descendants: one copy, beside the node, at a path which is free in the composition; no
other node changes but the parent, which lists it. -/
theorem C107_node_only (e : Env) (hcc : e.cc.Ok) (T : Nodes) (order : List Str → List Str) (g : Filed T order)
    (ps : List Str) (m : Str) (hm : Names (ps ++ [m])) (n : Dict Str Val)
    (hn : get? (render (ps ++ [m])) T = some n) (hsees : ∀ p ∈ keys T, p ∈ e.comp T)
    (hrounds : (e.comp T).length + 2 ≤ e.rounds) (fuel : Nat) (own : Option Str) :
    ∃ m' n' T', duplicate e fuel T n own false = some (T', [render (ps ++ [m'])]) ∧
      IsName m' ∧ render (ps ++ [m']) ∉ e.comp T ∧
      get? (render (ps ++ [m'])) T' = some n' ∧ CopyOf e.builtins n n' ∧
      getAttr n' "_name".toList = .str m' ∧ getAttr n' "_parent_path".toList = .str (render ps) ∧
      keys T' = keys T ++ [render (ps ++ [m'])] ∧
      (∀ q, q ≠ render (ps ++ [m']) → q ≠ render ps → get? q T' = get? q T) ∧
      (∀ pn, get? (render ps) T = some pn → ∃ pn', get? (render ps) T' = some pn' ∧
        (∀ a, a ≠ "_child_order".toList → get? a pn' = get? a pn) ∧
        getAttr pn' "_child_order".toList =
          .list ((if m' ∈ order ps then order ps else order ps ++ [m']).map Val.str)) := by
  have hps := (names_append.1 hm).1
  obtain ⟨m', n', h1, h2, h3, h4, h5, h6⟩ := root_copy e hcc T order g ps m hm n hn hsees hrounds
  have hd : Names (ps ++ [m']) := names_append.2 ⟨hps, names_cons.2 ⟨h1, names_nil⟩⟩
  obtain ⟨l1, l2, l3⟩ := linkParent_spec T (render ps) m'
  obtain ⟨f1, f2, f3, f4, f5⟩ := g.node _ n hm hn
  rw [List.getLast?_concat, Option.getD_some] at f2
  have hmn := (names_cons.1 (names_append.1 hm).2).1
  obtain ⟨n'', c1, c2, -, c4, c5, -⟩ := construct_copy e hd f1 f4 f5 ⟨m, f2, fun h => hmn.2.1 (by rw [h]; simp)⟩
  rw [h5] at c1; cases c1
  have hne : render ps ≠ render (ps ++ [m']) := fun h => by
    have := congrArg List.length (render_inj hps hd h)
    simp at this
  refine ⟨m', n', set (render (ps ++ [m'])) n' (linkParent T (render ps) m'), ?_, h1, h2, ?_, c2, c4, c5, ?_, ?_, ?_⟩
  · unfold duplicate
    simp only [h3, h6]
    rfl
  · rw [get?_set, if_pos rfl]
  · rw [keys_set, if_neg (by rw [l1]; exact fun h => h2 (hsees _ h)), l1]
  · intro q h h'
    rw [get?_set, if_neg h, l2 q h']
  · intro pn h
    rw [get?_set, if_neg hne]
    exact link_parent_order T order g ps hps m' pn h

/-- C107 for the world: its descendants are refused; the copy is a node named by an underscore, with the
user attributes, comment and code of the world, and none of its other internal attributes. -/
theorem C107_world (e : Env) (hcc : e.cc.Ok) (T : Nodes) (n : Dict Str Val) (order : List Str) (hok : Ok n)
    (hname : getAttr n "_name".toList = .str ['/']) (hpar : getAttr n "_parent_path".toList = .str [])
    (hco : getAttr n "_child_order".toList = .list (order.map Val.str))
    (hrounds : (e.comp T).length + 2 ≤ e.rounds) (fuel : Nat) (own : Option Str) (desc : Bool) :
    ∃ m' n' T', duplicate e fuel T n own desc = some (T', [render [m']]) ∧
      render [m'] ∉ e.comp T ∧ (m' = ['_'] ∨ ∃ k, 2 ≤ k ∧ m' = '_' :: Names.dec k) ∧
      get? (render [m']) T' = some n' ∧
      (∀ k v, UserName e.builtins k → get? k n = some v → v.truthy = true → v.serialisable = true →
        get? k n' = some v) ∧
      (∀ a ∈ ["_comment", "_code"].map String.toList, (getAttr n a).hasOpinion = true → getAttr n' a = getAttr n a) ∧
      (∀ a ∈ ["_execute_in", "_start_point", "_enabled", "_instance"].map String.toList,
        (getAttr n' a).hasOpinion = false) ∧
      getAttr n' "_child_order".toList = .list [] ∧
      ∀ q, q ≠ render [m'] → q ≠ ['/'] → get? q T' = get? q T := by
  obtain ⟨want, m', h1, h2, h3, -, h5, h6, h7⟩ :=
    C18_unique_node_name e.cc hcc (e.comp T) [] names_nil (some ['/']) (by simp) e.rounds hrounds
  have hdig : e.cc.isDigit '/' = false := by
    cases h : e.cc.isDigit '/' with
    | false => rfl
    | true => have := hcc.digit_word _ h; rw [hcc.slash] at this; cases this
  have hwant : want = ['_'] := by
    unfold Names.wantedNodeName Names.legalize at h1
    simp only [hdig, hcc.slash, List.map_cons, List.map_nil, Bool.false_eq_true, if_false] at h1
    rw [if_neg (by decide)] at h1
    exact (Option.some.inj h1).symm
  subst hwant
  rw [List.nil_append] at h5
  have hd : Names ([] ++ [m']) := names_cons.2 ⟨h3, names_nil⟩
  obtain ⟨n', c1, c2, c3, c4, c5, c6, c7⟩ := C25_round_trip e.builtins n e.real (render ([] ++ [m'])) order hok hco
  have hs : savedAttrs n = WORLD_SAVED := by
    unfold savedAttrs; rw [show A_NAME = "_name".toList from rfl, hname]; rfl
  refine ⟨m', n', set (render [m']) n' (linkParent T (render []) m'), ?_, h5, ?_, ?_, ?_, ?_, ?_, ?_, ?_⟩
  · unfold duplicate dupeParent
    rw [show textAttr n A_PARENT = [] from textAttr_of hpar]
    have hc : copyNode e T WORLD n = some (set (render [m']) n' (linkParent T (render []) m'), render [m']) := by
      unfold copyNode freeName
      rw [show textAttr n A_NAME = ['/'] from textAttr_of hname, ← render_nil, h2]
      simp only
      rw [addNode_eq e T [] m' hd, c1]
      simp only [Option.map_some]
      rw [(C09_parent_name_join [] m' hd).2.2.1]
      rfl
    simp only [if_true, hc]
    simp
  · by_cases hf : render ([] ++ [['_']]) ∈ e.comp T
    · obtain ⟨k, k1, k2, -⟩ := h7 hf
      exact .inr ⟨k, k1, k2⟩
    · exact .inl (h6 hf)
  · rw [get?_set, if_pos rfl]
  · intro k v hk hv ht hse
    have := (c4 k (mem_keys.2 ⟨v, mem_of_get? hv⟩) (isUser_of_userName hk)).1
    rw [this, getAttr_of_get? hv, kept, ht, hse]; rfl
  · intro a ha ho
    have hw : ∀ a ∈ ["_comment", "_code"].map String.toList, a ∈ TRACKED ∧ a ∈ WORLD_SAVED := by decide +kernel
    rw [getAttr_of_get? (c5 a (hw a ha).1), keptInternal, hs, if_pos ⟨(hw a ha).2, ho⟩]
  · intro a ha
    have hw : ∀ a ∈ ["_execute_in", "_start_point", "_enabled", "_instance"].map String.toList,
      a ∈ TRACKED ∧ a ∉ WORLD_SAVED ∧ a ≠ A_CODE ∧ a ≠ A_PARENT := by decide +kernel
    obtain ⟨w1, w2, w3, w4⟩ := hw a ha
    rw [getAttr_of_get? (c5 a w1), keptInternal, hs, if_neg (fun h => w2 h.1)]
    unfold internalDefault
    rw [if_neg w3, if_neg w4]; rfl
  · rw [show "_child_order".toList = A_CHILD_ORDER from rfl, getAttr_of_get? c6, hs, if_neg (by decide +kernel)]; rfl
  · intro q hq hw
    rw [get?_set, if_neg hq]
    exact (linkParent_spec T (render []) m').2.1 q hw

/-- C107 violated: the descendants of a node are asked for, but the node is from another layer than the one
to be edited; nothing but the node is copied, whatever is below it in either layer. -/
theorem C107_other_layer_violation (e : Env) (fuel : Nat) (T : Nodes) (n : Dict Str Val) :
    duplicate e fuel T n none true = duplicate e fuel T n none false := by
  unfold duplicate
  cases dupeParent e T n with
  | none => rfl
  | some r =>
    obtain ⟨T1, pp, made⟩ := r
    simp only
    cases copyNode e T1 pp n with
    | none => rfl
    | some r =>
      obtain ⟨T2, new⟩ := r
      simp only [Bool.false_and, Bool.true_and, Bool.false_eq_true, if_false]
      split <;> rfl

/-! ### Samples -/

/-- A node at a path, with an instance path and a child order. -/
def dupNode (p : String) (inst : Val) (order : List String) : Str × Dict Str Val :=
  (p.toList, [(A_NAME, .str (nodeName p.toList)), (A_PARENT, .str (parentPath p.toList)), (A_INSTANCE, inst),
    (A_CHILD_ORDER, .list ((order.map String.toList).map Val.str))])

/-- The node paths of the composition of one layer: its nodes with the proxies (see C80). -/
def dupProxied (T : Nodes) : List Str :=
  ((Proxies.compProxies (fun a b => a == b) Proxies.kidPaths 6
    ⟨T.map (fun e => (e.1, ⟨match getAttr e.2 A_INSTANCE with | .str s => some s | _ => none, [], false⟩)), []⟩).map
    (fun S => keys S.nodes)).getD []

def dupEnv : Env := ⟨asciiClass, dupProxied, [], none, 20⟩

/-- The paths made by duplicating a node of the layer with its descendants. -/
def dupMade (T : Nodes) (p : String) : Option (List Str) :=
  ((get? p.toList T).bind (fun n => duplicate dupEnv 9 T n (some p.toList) true)).map Prod.snd

/-- Without instances and gaps the copy has the names of the original. -/
example : dupMade [dupNode "/a" .none ["x", "y"], dupNode "/a/x" .none ["z"], dupNode "/a/y" .none [],
      dupNode "/a/x/z" .none []] "/a" =
    some ["/a2".toList, "/a2/x".toList, "/a2/x/z".toList, "/a2/y".toList] := by decide +kernel

/-- A layer with a node and a child. -/
def dupPair : Nodes := [dupNode "/a" .none ["x"], dupNode "/a/x" .none []]

theorem dupPair_filed : Filed dupPair (fun ns => if ns = [['a']] then [['x']] else []) := by
  have hk : keys dupPair = [render [['a']], render [['a'], ['x']]] := by decide +kernel
  have hN : ∀ ns, Names ns → render ns ∈ keys dupPair → ns = [['a']] ∨ ns = [['a'], ['x']] := by
    intro ns hns h
    rw [hk, List.mem_cons, List.mem_singleton] at h
    rcases h with h | h
    · exact .inl (render_inj hns (by decide +kernel) h)
    · exact .inr (render_inj hns (by decide +kernel) h)
  have hsnoc : ∀ ns m, ns ≠ [] → Names (ns ++ [m]) → render (ns ++ [m]) ∈ keys dupPair → ns = [['a']] ∧ m = ['x'] := by
    intro ns m h0 hns h
    rcases hN _ hns h with h | h
    · have := congrArg List.length h
      simp at this
      exact absurd this h0
    · rw [show ([['a'], ['x']] : List Str) = [['a']] ++ [['x']] from rfl] at h
      have := List.append_inj' h rfl
      exact ⟨this.1, by simpa using this.2⟩
  refine ⟨by decide +kernel, ?_, ?_, ?_, ?_⟩
  · intro p hp
    rw [hk, List.mem_cons, List.mem_singleton] at hp
    rcases hp with rfl | rfl
    · exact ⟨_, by decide +kernel, rfl⟩
    · exact ⟨_, by decide +kernel, rfl⟩
  · intro ns n hns h
    rcases hN ns hns (get?_isSome.1 (by rw [h]; rfl)) with rfl | rfl
    · cases h
      exact ⟨by decide +kernel, rfl, rfl, rfl, by decide +kernel⟩
    · cases h
      exact ⟨by decide +kernel, rfl, rfl, rfl, by decide +kernel⟩
  · intro ns m h0 hns h
    obtain ⟨rfl, rfl⟩ := hsnoc ns m h0 hns h
    decide +kernel
  · intro ns m h0 hns h
    obtain ⟨rfl, rfl⟩ := hsnoc ns m h0 hns h
    rw [hk]; simp

/-- Duplicating the node on a stage where another layer has a node of the next name. -/
example : ∃ m' T' made,
    duplicate ⟨asciiClass, fun T => keys T ++ ["/a2".toList], [], none, 20⟩ 5 dupPair (dupNode "/a" .none ["x"]).2
      (some (render ([] ++ [['a']]))) true = some (T', made) ∧ IsName m' ∧ render ([] ++ [m']) ∉ keys dupPair ∧
      render ([] ++ [m']) ∉ ["/a2".toList] := by
  obtain ⟨m', T', made, h1, h2, h3, h4, -⟩ := C107_no_instances_partial
    ⟨asciiClass, fun T => keys T ++ ["/a2".toList], [], none, 20⟩ asciiClass_ok dupPair _ dupPair_filed ["/a2".toList]
    (fun T1 p => List.mem_append) (by
      intro ns x h0 hns h
      rw [List.mem_singleton] at h
      have := congrArg List.length (render_inj (b := ["a2".toList]) hns (by decide +kernel) h)
      simp at this
      exact absurd this h0)
    [] ['a'] (by decide +kernel) (dupNode "/a" .none ["x"]).2 rfl (by decide +kernel) 5 (by
      intro ns hns h
      have hk : keys dupPair = [render [['a']], render [['a'], ['x']]] := by decide +kernel
      rw [hk, List.mem_cons, List.mem_singleton] at h
      rcases h with h | h
      · rw [render_inj hns (by decide +kernel) h]; decide
      · rw [render_inj hns (by decide +kernel) h]; decide) (by
      intro rest hr h x hx
      have hk : keys dupPair = [render [['a']], render [['a'], ['x']]] := by decide +kernel
      have hN : Names ([] ++ [['a']] ++ rest) := names_append.2 ⟨by decide +kernel, hr⟩
      rw [hk, List.mem_cons, List.mem_singleton] at h
      rcases h with h | h
      · have := render_inj hN (by decide +kernel) h
        simp at this
        rw [this] at hx; cases hx
      · have := render_inj hN (by decide +kernel) h
        simp at this
        rw [this, List.mem_singleton] at hx
        subst hx
        exact ⟨⟨'x', [], rfl, by decide⟩, by decide, by decide⟩)
  exact ⟨m', T', made, h1, h2, h3, h4⟩

/-- The world is duplicated as a node with another name; one node is duplicated without its child; a node
of another layer is duplicated with the parent it needs. -/
example : getAttr (dupNode "/" .none ["a"]).2 "_name".toList = .str ['/'] ∧
    getAttr (dupNode "/" .none ["a"]).2 "_parent_path".toList = .str [] ∧
    dupMade (dupNode "/" .none ["a"] :: dupPair) "/" = some ["/_".toList] ∧
    (duplicate dupEnv 9 dupPair (dupNode "/a" .none ["x"]).2 (some "/a".toList) false).map Prod.snd =
      some ["/a2".toList] ∧
    (duplicate dupEnv 9 dupPair (dupNode "/b/c/d" .none ["x"]).2 none true).map Prod.snd =
      some ["/b".toList, "/b/c".toList, "/b/c/d".toList] :=
  ⟨rfl, rfl, by decide +kernel, by decide +kernel, by decide +kernel⟩

/-- C107 violated: an instance with a node in place of a proxy is duplicated.  As soon as the copy of the
instance is there the composition makes a proxy below it, so that the copy of the child gets another
name, and is no longer in place of the proxy. -/
theorem C107_instance_violation :
    dupMade [dupNode "/s" .none ["x"], dupNode "/s/x" .none [], dupNode "/a" (.str "/s".toList) ["x"],
      dupNode "/a/x" .none []] "/a" = some ["/a2".toList, "/a2/x2".toList] := by decide +kernel

/-- C107 violated: a node below a gap is not copied. -/
theorem C107_gap_violation :
    dupMade [dupNode "/a" .none ["x"], dupNode "/a/x" .none [], dupNode "/a/y/z" .none []] "/a" =
      some ["/a2".toList, "/a2/x".toList] := by decide +kernel

/-- C107 violated: the new root is at a path which is free but has nodes below it.  Those become children
of the copy, and a copy with the same name gets another one. -/
theorem C107_capture_violation :
    dupMade [dupNode "/a" .none ["x"], dupNode "/a/x" .none [], dupNode "/a2/x" .none []] "/a" =
      some ["/a2".toList, "/a2/x2".toList] := by decide +kernel

/-- C107 violated: a name with other characters than those of identifiers is changed in the copy. -/
theorem C107_name_violation :
    dupMade [dupNode "/a" .none ["x-1"], dupNode "/a/x-1" .none []] "/a" =
      some ["/a2".toList, "/a2/x_1".toList] := by decide +kernel

/-! ## C108 -/


theorem pathsDown_longer {seen ns : List Str} {q : Str} (h : q ∈ pathsDown seen ns) (hN : Names (seen ++ ns)) :
    ∃ x t, Names (seen ++ x :: t) ∧ q = render (seen ++ x :: t) := by
  induction ns generalizing seen with
  | nil => simp [pathsDown] at h
  | cons y ns ih =>
    unfold pathsDown at h
    rcases List.mem_cons.1 h with rfl | h
    · have hN' : Names (seen ++ [y] ++ ns) := by simpa using hN
      exact ⟨y, [], (names_append.1 hN').1, rfl⟩
    · obtain ⟨x, t, h1, h2⟩ := ih h (by simpa using hN)
      exact ⟨y, x :: t, by simpa using h1, by simpa using h2⟩

/-- A node without data. -/
theorem blank_made (e : Env) (qs : List Str) (x : Str) (h : Names (qs ++ [x])) :
    ∃ n, constructNode e.real (render (qs ++ [x])) [] = some n ∧ Blank e.builtins n x qs ∧
      get? A_CHILD_ORDER n = some (.list ([] : List Val)) := by
  obtain ⟨p1, p2, -⟩ := C09_parent_name_join qs x h
  unfold constructNode
  rw [createSpecNode_source, p1, p2]
  obtain ⟨n, h1, -, h3, h4, h5, h6, h7, -⟩ := createSpecNode_spec e.builtins (set "name".toList (.str x) []) e.real (render qs) x []
    [] rfl rfl ok_nil (fun _ h => nomatch h) (fun _ _ h => nomatch h) rfl
  refine ⟨n, h1, ⟨getAttr_of_get? h6, getAttr_of_get? h7, ?_, ?_⟩, h5⟩
  · intro k hk
    rw [h3 k (isUser_of_userName hk)]
    simp
  · intro a ha
    have hT : a ∈ TRACKED := by
      have : opinionAttrs = TRACKED := by decide +kernel
      rwa [this] at ha
    rw [getAttr_of_get? (h4 a hT).1]
    have hk : ∀ a ∈ TRACKED, saveKey a ≠ "name".toList ∧ a ≠ A_PARENT := by decide +kernel
    unfold internalValue
    rw [get?_set, if_neg (hk a hT).1]
    show Val.hasOpinion (if _ then internalDefault a else Val.none) = false
    split
    · unfold internalDefault
      rw [if_neg (hk a hT).2]
      split <;> rfl
    · rfl

theorem _root_.Nxt.Spec.OrdersOk.link {T : Nodes} (h : OrdersOk T) (p x : Str) : OrdersOk (linkParent T p x) := by
  intro q n hq
  obtain ⟨l1, l2, l3⟩ := linkParent_spec T p x
  by_cases hp : q = p
  · subst hp
    cases hg : get? q T with
    | none => rw [get?_eq_none.2 (by rw [l1]; exact get?_eq_none.1 hg)] at hq; cases hq
    | some pn =>
      obtain ⟨o, o1, o2⟩ := h q pn hg
      by_cases hx : x ∈ o
      · rw [linkParent_listed hg o1 hx, hg] at hq; cases hq; exact ⟨o, o1, o2⟩
      · unfold linkParent at hq
        rw [hg] at hq
        simp only [show A_CHILD_ORDER = "_child_order".toList from rfl, o1, names_map] at hq
        rw [if_neg hx, get?_set, if_pos rfl] at hq
        cases hq
        refine ⟨_, getAttr_of_get? (by rw [get?_set, if_pos rfl]), (C15_union_nodup _ _ o2 (by simp)).1⟩
  · rw [l2 q hp] at hq; exact h q n hq

theorem link_lists {T : Nodes} (h : OrdersOk T) (p x : Str) (n : Dict Str Val)
    (hn : get? p (linkParent T p x) = some n) :
    ∃ o : List Str, getAttr n "_child_order".toList = .list (o.map Val.str) ∧ x ∈ o := by
  obtain ⟨l1, l2, l3⟩ := linkParent_spec T p x
  cases hg : get? p T with
  | none => rw [get?_eq_none.2 (by rw [l1]; exact get?_eq_none.1 hg)] at hn; cases hn
  | some pn =>
    obtain ⟨o, o1, o2⟩ := h p pn hg
    by_cases hx : x ∈ o
    · rw [linkParent_listed hg o1 hx, hg] at hn; cases hn; exact ⟨o, o1, hx⟩
    · unfold linkParent at hn
      rw [hg] at hn
      simp only [show A_CHILD_ORDER = "_child_order".toList from rfl, o1, names_map] at hn
      rw [if_neg hx, get?_set, if_pos rfl] at hn
      cases hn
      exact ⟨_, getAttr_of_get? (by rw [get?_set, if_pos rfl]), ((C15_union_nodup _ _ o2 (by simp)).2 x).2 (.inr (by simp))⟩

/-- The loop over the names from some namespace on. -/
theorem hierarchy_loop (e : Env) (ns : List Str) :
    ∀ (T : Nodes) (seen made : List Str), Names (seen ++ ns) → OrdersOk T →
      ∃ T' more, ns.foldl (hierarchyStep e) (some (T, render seen, made, seen)) =
          some (T', render (seen ++ ns), made ++ more, seen ++ ns) ∧
        more = (pathsDown seen ns).filter (fun p => p ∉ keys T) ∧ keys T' = keys T ++ more ∧
        (∀ q, q ≠ render seen → q ∉ pathsDown seen ns → get? q T' = get? q T) ∧
        (∀ q n, get? q T = some n → ∃ n', get? q T' = some n' ∧ ∀ a, a ≠ "_child_order".toList → get? a n' = get? a n) ∧
        (∀ pre x post, ns = pre ++ x :: post → render (seen ++ pre ++ [x]) ∉ keys T →
          (∃ n', get? (render (seen ++ pre ++ [x])) T' = some n' ∧ Blank e.builtins n' x (seen ++ pre)) ∧
          ∀ n, get? (render (seen ++ pre)) T' = some n →
            ∃ o : List Str, getAttr n "_child_order".toList = .list (o.map Val.str) ∧ x ∈ o) := by
  induction ns with
  | nil =>
    intro T seen made _ _
    exact ⟨T, [], by simp, by simp [pathsDown], by simp, fun _ _ _ => rfl, fun q n h => ⟨n, h, fun _ _ => rfl⟩,
      fun pre x post h => by simp at h⟩
  | cons x ns ih =>
    intro T seen made hN ho
    have hN' : Names (seen ++ [x] ++ ns) := by simpa using hN
    have hsx : Names (seen ++ [x]) := (names_append.1 hN').1
    have hs : Names seen := (names_append.1 hsx).1
    have hfn : fromNamespace (seen ++ [x]) = render (seen ++ [x]) := fromNamespace_eq (by simp)
    have hne : render seen ≠ render (seen ++ [x]) := fun h => by
      have := congrArg List.length (render_inj hs hsx h); simp at this
    have hnotlater : render (seen ++ [x]) ∉ pathsDown (seen ++ [x]) ns := by
      intro h
      obtain ⟨y, t, h1, h2⟩ := pathsDown_longer h hN'
      have := congrArg List.length (render_inj hsx h1 h2); simp at this
    have hseenlater : render seen ∉ pathsDown (seen ++ [x]) ns := by
      intro h
      obtain ⟨y, t, h1, h2⟩ := pathsDown_longer h hN'
      have := congrArg List.length (render_inj hs h1 h2); simp at this
    by_cases hk : render (seen ++ [x]) ∈ keys T
    · obtain ⟨T', more, h1, h2, h3, h4, h5, h6⟩ := ih T (seen ++ [x]) made hN' ho
      refine ⟨T', more, ?_, ?_, h3, ?_, h5, ?_⟩
      · rw [List.foldl_cons]
        have : hierarchyStep e (some (T, render seen, made, seen)) x = some (T, render (seen ++ [x]), made, seen ++ [x]) := by
          unfold hierarchyStep
          simp only [hfn]
          exact if_pos (get?_isSome.2 hk)
        rw [this, h1]
        simp
      · rw [h2, pathsDown, List.filter_cons_of_neg (by simpa using hk)]
      · intro q hq1 hq2
        rw [pathsDown, List.mem_cons, not_or] at hq2
        exact h4 q hq2.1 hq2.2
      · intro pre y post he hm
        cases pre with
        | nil =>
          simp only [List.nil_append, List.cons.injEq] at he
          obtain ⟨rfl, rfl⟩ := he
          rw [List.append_nil] at hm
          exact absurd hk hm
        | cons z pre =>
          simp only [List.cons_append, List.cons.injEq] at he
          obtain ⟨rfl, rfl⟩ := he
          have := h6 pre y post rfl (by simpa using hm)
          simpa using this
    · obtain ⟨n, b1, b2, b3⟩ := blank_made e seen x hsx
      obtain ⟨l1, l2, l3⟩ := linkParent_spec T (render seen) x
      have hkT : keys (set (render (seen ++ [x])) n (linkParent T (render seen) x)) = keys T ++ [render (seen ++ [x])] := by
        rw [keys_set, if_neg (by rw [l1]; exact hk), l1]
      obtain ⟨T', more, h1, h2, h3, h4, h5, h6⟩ := ih (set (render (seen ++ [x])) n (linkParent T (render seen) x))
        (seen ++ [x]) (made ++ [render (seen ++ [x])]) hN' (by
          intro q m hq
          rw [get?_set] at hq
          split at hq
          · cases hq; exact ⟨[], getAttr_of_get? b3, List.nodup_nil⟩
          · exact ho.link _ _ q m hq)
      refine ⟨T', render (seen ++ [x]) :: more, ?_, ?_, ?_, ?_, ?_, ?_⟩
      · rw [List.foldl_cons]
        have : hierarchyStep e (some (T, render seen, made, seen)) x =
            some (set (render (seen ++ [x])) n (linkParent T (render seen) x), render (seen ++ [x]),
              made ++ [render (seen ++ [x])], seen ++ [x]) := by
          unfold hierarchyStep
          simp only [hfn]
          rw [if_neg (by rw [get?_eq_none.2 hk]; simp), addNode_eq e T seen x hsx, b1]
          simp only [Option.map_some]
          rw [(C09_parent_name_join seen x hsx).2.2.1]
        rw [this, h1]
        simp
      · rw [h2, pathsDown, List.filter_cons_of_pos (by simpa using hk)]
        congr 1
        apply List.filter_congr
        intro q hq
        rw [hkT]
        have : q ≠ render (seen ++ [x]) := fun h => hnotlater (h ▸ hq)
        simp [this]
      · rw [h3, hkT]; simp
      · intro q hq1 hq2
        rw [pathsDown, List.mem_cons, not_or] at hq2
        rw [h4 q hq2.1 hq2.2, get?_set, if_neg hq2.1, l2 q hq1]
      · intro q n0 hq
        have hqx : q ≠ render (seen ++ [x]) := by
          rintro rfl; exact hk (get?_isSome.1 (by rw [hq]; rfl))
        obtain ⟨n1, g1, g2⟩ : ∃ n1, get? q (linkParent T (render seen) x) = some n1 ∧
            ∀ a, a ≠ A_CHILD_ORDER → get? a n1 = get? a n0 := by
          by_cases hqs : q = render seen
          · subst hqs; exact l3 n0 hq
          · exact ⟨n0, by rw [l2 q hqs]; exact hq, fun _ _ => rfl⟩
        obtain ⟨n2, k1, k2⟩ := h5 q n1 (by rw [get?_set, if_neg hqx]; exact g1)
        exact ⟨n2, k1, fun a ha => (k2 a ha).trans (g2 a ha)⟩
      · intro pre y post he hm
        cases pre with
        | nil =>
          simp only [List.nil_append, List.cons.injEq] at he
          obtain ⟨rfl, rfl⟩ := he
          rw [List.append_nil]
          constructor
          · obtain ⟨n', k1, k2⟩ := h5 (render (seen ++ [x])) n (by rw [get?_set, if_pos rfl])
            refine ⟨n', k1, ?_, ?_, ?_, ?_⟩
            · rw [← b2.name]; unfold getAttr; rw [k2 _ (by decide +kernel)]
            · rw [← b2.parent]; unfold getAttr; rw [k2 _ (by decide +kernel)]
            · intro k hk' hm'
              have hko : k ≠ "_child_order".toList := by
                rintro rfl
                exact hk'.2.1 (by decide +kernel)
              refine b2.user k hk' (get?_isSome.1 ?_)
              rw [← k2 k hko]
              exact get?_isSome.2 hm'
            · intro a ha
              rw [← b2.silent a ha]
              have hno : ∀ a ∈ opinionAttrs, a ≠ "_child_order".toList := by decide +kernel
              unfold getAttr; rw [k2 _ (hno a ha)]
          · intro m hm'
            rw [h4 _ hne hseenlater, get?_set, if_neg hne] at hm'
            exact link_lists ho _ _ m hm'
        | cons z pre =>
          simp only [List.cons_append, List.cons.injEq] at he
          obtain ⟨rfl, rfl⟩ := he
          have hN3 : Names (seen ++ [x] ++ pre ++ [y] ++ post) := by simpa using hN'
          have hN2 := (names_append.1 hN3).1
          have := h6 pre y post rfl (by
            rw [hkT, List.mem_append, not_or]
            refine ⟨by simpa using hm, ?_⟩
            rw [List.mem_singleton]
            intro h
            have := congrArg List.length (render_inj hN2 hsx h)
            simp at this)
          simpa using this

/-- C108: a hierarchy is added without a parent.  Exactly those nodes are made which are missing, from the top
down, and the paths reported are theirs; they have nothing but a name and a place; each is listed in the child
order of the node above.  Every node which was there keeps everything but its child order, and is
untouched unless it is on the way. -/
theorem C108_hierarchy (e : Env) (T : Nodes) (ho : OrdersOk T) (ns : List Str) (hN : Names ns) :
    ∃ T' made, addHierarchy e T none ns = some (T', made) ∧
      made = (pathsDown [] ns).filter (fun p => p ∉ keys T) ∧ keys T' = keys T ++ made ∧
      (∀ q, q ≠ ['/'] → q ∉ pathsDown [] ns → get? q T' = get? q T) ∧
      (∀ q n, get? q T = some n → ∃ n', get? q T' = some n' ∧ ∀ a, a ≠ "_child_order".toList → get? a n' = get? a n) ∧
      (∀ pre x post, ns = pre ++ x :: post → render (pre ++ [x]) ∉ keys T →
        (∃ n', get? (render (pre ++ [x])) T' = some n' ∧ Blank e.builtins n' x pre) ∧
        ∀ n, get? (render pre) T' = some n →
          ∃ o : List Str, getAttr n "_child_order".toList = .list (o.map Val.str) ∧ x ∈ o) := by
  obtain ⟨T', more, h1, h2, h3, h4, h5, h6⟩ := hierarchy_loop e ns T [] [] (by simpa using hN) ho
  refine ⟨T', more, ?_, h2, h3, h4, h5, fun pre x post he hm => ?_⟩
  · unfold addHierarchy
    rw [Option.getD_none, ← render_nil, h1]
    simp
  · have := h6 pre x post he (by simpa using hm)
    simpa using this

/-- C108: adding the same hierarchy again makes nothing and changes nothing. -/
theorem C108_again (e : Env) (T : Nodes) (ns : List Str) (hN : Names ns) (T' : Nodes) (made : List Str)
    (ho : OrdersOk T) (h : addHierarchy e T none ns = some (T', made)) : addHierarchy e T' none ns = some (T', []) := by
  obtain ⟨T2, made2, h1, h2, h3, -⟩ := C108_hierarchy e T ho ns hN
  rw [h] at h1
  cases h1
  have hall : ∀ q ∈ pathsDown [] ns, q ∈ keys T' := by
    intro q hq
    rw [h3, h2, List.mem_append, List.mem_filter]
    by_cases hk : q ∈ keys T
    · exact .inl hk
    · exact .inr ⟨hq, by simpa using hk⟩
  have key : ∀ (ns seen : List Str), (∀ q ∈ pathsDown seen ns, q ∈ keys T') →
      ns.foldl (hierarchyStep e) (some (T', render seen, [], seen)) = some (T', render (seen ++ ns), [], seen ++ ns) := by
    intro ns
    induction ns with
    | nil => intro seen _; simp
    | cons x ns ih =>
      intro seen hq
      rw [List.foldl_cons]
      have : hierarchyStep e (some (T', render seen, [], seen)) x = some (T', render (seen ++ [x]), [], seen ++ [x]) := by
        unfold hierarchyStep
        simp only [show fromNamespace (seen ++ [x]) = render (seen ++ [x]) from fromNamespace_eq (by simp)]
        exact if_pos (get?_isSome.2 (hq _ (by rw [pathsDown]; exact List.mem_cons_self ..)))
      rw [this, ih (seen ++ [x]) (fun q h => hq q (by rw [pathsDown]; exact List.mem_cons_of_mem _ h))]
      simp
  unfold addHierarchy
  rw [Option.getD_none, ← render_nil, key ns [] hall]

/-- C108 violated: with a parent given, the path looked for and reported is not the one of the node made; a
second call makes it again in place of the first. -/
theorem C108_parent_violation :
    (addHierarchy dupEnv [dupNode "/p" .none []] (some "/p".toList) ["a".toList]).map (fun r => (keys r.1, r.2)) =
      some (["/p".toList, "/p/a".toList], ["/a".toList]) ∧
    ((addHierarchy dupEnv [dupNode "/p" .none []] (some "/p".toList) ["a".toList]).bind
      (fun r => addHierarchy dupEnv r.1 (some "/p".toList) ["a".toList])).map Prod.snd = some ["/a".toList] := by
  decide +kernel

/-- A hierarchy with its first node there. -/
example : (addHierarchy dupEnv [dupNode "/a" .none []] none ["a".toList, "b".toList, "c".toList]).map Prod.snd =
    some ["/a/b".toList, "/a/b/c".toList] := by decide +kernel

/-- The path of the whole namespace is the last one. -/
theorem pathsDown_last {ps : List Str} (h : ps ≠ []) : render ps ∈ pathsDown [] ps := by
  have key : ∀ (xs seen : List Str), xs ≠ [] → render (seen ++ xs) ∈ pathsDown seen xs := by
    intro xs
    induction xs with
    | nil => intro _ h; exact absurd rfl h
    | cons x xs ih =>
      intro seen _
      rw [pathsDown, List.mem_cons]
      by_cases hx : xs = []
      · subst hx; exact .inl rfl
      · refine .inr ?_
        have := ih (seen ++ [x]) hx
        simpa using this
  simpa using key ps [] h

/-- C107 for a node of another layer whose parent is missing in the layer to be edited: the missing parents are
made from the top down, then the copy below them, at a path which is free; all of them are reported, and no
other node is made; the other nodes keep everything but their child orders. -/
theorem C107_parents_made (e : Env) (hcc : e.cc.Ok) (T : Nodes) (ho : OrdersOk T) (ps : List Str) (m : Str)
    (hm : Names (ps ++ [m])) (hps0 : ps ≠ []) (hgone : render ps ∉ keys T) (n : Dict Str Val) (order : List Str)
    (hok : Ok n) (hname : getAttr n "_name".toList = .str m)
    (hpar : getAttr n "_parent_path".toList = .str (render ps))
    (hco : getAttr n "_child_order".toList = .list (order.map Val.str)) (hnd : order.Nodup)
    (hsees : ∀ T1, ∀ p ∈ keys T1, p ∈ e.comp T1)
    (hrounds : ∀ T1, keys T1 = keys T ++ (pathsDown [] ps).filter (fun p => p ∉ keys T) →
      (e.comp T1).length + 2 ≤ e.rounds) (fuel : Nat) (desc : Bool) :
    ∃ m' n' T', duplicate e fuel T n none desc =
        some (T', (pathsDown [] ps).filter (fun p => p ∉ keys T) ++ [render (ps ++ [m'])]) ∧
      IsName m' ∧ render (ps ++ [m']) ∉ keys T ∧
      keys T' = keys T ++ (pathsDown [] ps).filter (fun p => p ∉ keys T) ++ [render (ps ++ [m'])] ∧
      render ps ∈ keys T' ∧
      get? (render (ps ++ [m'])) T' = some n' ∧ CopyOf e.builtins n n' ∧
      getAttr n' "_name".toList = .str m' ∧ getAttr n' "_parent_path".toList = .str (render ps) ∧
      (∀ q n0, get? q T = some n0 → ∃ n1, get? q T' = some n1 ∧
        ∀ a, a ≠ "_child_order".toList → get? a n1 = get? a n0) := by
  have hps := (names_append.1 hm).1
  have hmn := (names_cons.1 (names_append.1 hm).2).1
  obtain ⟨T1, made, a1, a2, a3, -, a5, -⟩ := C108_hierarchy e T ho ps hps
  subst a2
  obtain ⟨want, m', -, h2, h3, -, h5, -⟩ :=
    C18_unique_node_name e.cc hcc (e.comp T1) ps hps (some m) (by simp [hmn.1]) e.rounds (hrounds T1 a3)
  have hd : Names (ps ++ [m']) := names_append.2 ⟨hps, names_cons.2 ⟨h3, names_nil⟩⟩
  obtain ⟨n', c1, c2, -, c4, c5, -⟩ := construct_copy e hd hok hco hnd ⟨m, hname, fun h => hmn.2.1 (by rw [h]; simp)⟩
  obtain ⟨l1, l2, l3⟩ := linkParent_spec T1 (render ps) m'
  have hfree : render (ps ++ [m']) ∉ keys T1 := fun h => h5 (hsees _ _ h)
  have hne : render ps ≠ [] := by
    rw [render_ne_nil hps0]; exact fun h' => hps0 (slashed_eq_nil.1 h')
  have hw : render ps ≠ WORLD := fun h => hps0 ((render_eq_world hps).1 h)
  have hdp : dupeParent e T n = some (T1, render ps, (pathsDown [] ps).filter (fun p => p ∉ keys T)) := by
    unfold dupeParent
    simp only [show textAttr n A_PARENT = render ps from textAttr_of hpar]
    rw [if_neg hne, if_neg hw, if_neg (fun h => hgone (get?_isSome.1 h)), Edit.toNamespace_render hps, if_neg hps0, a1]
  have hc : copyNode e T1 (render ps) n =
      some (set (render (ps ++ [m'])) n' (linkParent T1 (render ps) m'), render (ps ++ [m'])) := by
    unfold copyNode freeName
    rw [show textAttr n A_NAME = m from textAttr_of hname, h2]
    simp only
    rw [addNode_eq e T1 ps m' hd, c1]
    simp only [Option.map_some]
    rw [(C09_parent_name_join ps m' hd).2.2.1]
  have hks : keys (set (render (ps ++ [m'])) n' (linkParent T1 (render ps) m')) =
      keys T ++ (pathsDown [] ps).filter (fun p => p ∉ keys T) ++ [render (ps ++ [m'])] := by
    rw [keys_set, if_neg (by rw [l1]; exact hfree), l1, a3]
  refine ⟨m', n', set (render (ps ++ [m'])) n' (linkParent T1 (render ps) m'), ?_, h3, ?_, hks, ?_, ?_, c2, c4, c5, ?_⟩
  · unfold duplicate
    simp only [hdp, hc]
    split <;> rfl
  · exact fun h => hfree (by rw [a3, List.mem_append]; exact .inl h)
  · rw [hks, List.mem_append, List.mem_append]
    refine .inl (.inr (List.mem_filter.2 ⟨?_, by simpa using hgone⟩))
    exact pathsDown_last hps0
  · rw [get?_set, if_pos rfl]
  · intro q n0 h
    obtain ⟨n1, b1, b2⟩ := a5 q n0 h
    have hq : q ≠ render (ps ++ [m']) := fun h' => hfree (by
      rw [a3, List.mem_append]; exact .inl (by rw [← h']; exact get?_isSome.1 (by rw [h]; rfl)))
    by_cases hqp : q = render ps
    · exact absurd (hqp ▸ get?_isSome.1 (by rw [h]; rfl)) hgone
    · exact ⟨n1, by rw [get?_set, if_neg hq, l2 q hqp, b1], b2⟩

/-- A node of another layer goes below two parents which this layer has not. -/
example : (duplicate dupEnv 9 dupPair (dupNode "/a/u/v/w" .none []).2 none true).map (fun r => (keys r.1, r.2)) =
    some (["/a", "/a/x", "/a/u", "/a/u/v", "/a/u/v/w"].map String.toList,
      ["/a/u", "/a/u/v", "/a/u/v/w"].map String.toList) := by decide +kernel

/-- The layer of the sample meets the hypotheses on the parents. -/
example : OrdersOk dupPair ∧ render ["a".toList, "u".toList, "v".toList] ∉ keys dupPair ∧
    Names ["a".toList, "u".toList, "v".toList, "w".toList] := by
  refine ⟨fun p n h => ?_, by decide +kernel, by decide +kernel⟩
  have hm := mem_of_get? h
  have hl : dupPair = [dupNode "/a" .none ["x"], dupNode "/a/x" .none []] := rfl
  rw [hl, List.mem_cons, List.mem_singleton] at hm
  rcases hm with hm | hm <;> cases hm
  · exact ⟨[['x']], rfl, by decide⟩
  · exact ⟨[], rfl, by decide⟩

end Nxt.Props
