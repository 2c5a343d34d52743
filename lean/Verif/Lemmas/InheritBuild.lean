import Verif.Lemmas.InheritInst
/-!
# Lemmas about making the classes of a composition
-/
namespace Nxt.Inherit
open Dict NodeData Mro Spec

/-- The classes made so far. -/
structure Built (done : List (Str × Dict Str Val × List (Dict Str Val))) (g : Classes) (nodes : Dict Str Nat) : Prop where
  laid : Laid g nodes g.bases (fun _ => [])
  keys : keys nodes = done.map Prod.fst
  tables : ∀ n ∈ done, ∃ c, (n.1, c) ∈ nodes ∧ tablesOf g g.bases c = n.2.1 :: n.2.2
  node : g.own 0 = NODE_CLASS

theorem built_nil : Built [] onlyNode [] where
  laid := {
    ok := ok_nil
    inj := fun _ _ _ h => nomatch h
    root := rfl
    pos := Nat.one_pos
    comp := fun _ _ h => nomatch h
    link := fun _ _ h => nomatch h
    spec := fun _ _ h => nomatch h
    nonempty := fun _ _ h => nomatch h
    nodup := fun _ _ h => nomatch h
    disjoint := fun _ _ _ _ h => nomatch h
    others := fun s h1 h2 => by simp only [onlyNode] at h1; omega }
  keys := rfl
  tables := fun _ h => nomatch h
  node := rfl

theorem built_cons {done : List (Str × Dict Str Val × List (Dict Str Val))} {g : Classes} {nodes : Dict Str Nat}
    (h : Built done g nodes) (n : Str × Dict Str Val × List (Dict Str Val)) (hn : n.1 ∉ done.map Prod.fst)
    (hs : n.2.2 ≠ []) : Built (done ++ [n]) (addNode g n.2.1 n.2.2) (Dict.set n.1 g.size nodes) := by
  obtain ⟨p, own, specs⟩ := n
  simp only at hn hs ⊢
  have hset : Dict.set p g.size nodes = nodes ++ [(p, g.size)] := set_of_not_mem (by rw [h.keys]; exact hn)
  have hlen := List.length_pos_iff.2 hs
  have old : ∀ d < g.size, (addNode g own specs).bases d = g.bases d := fun d hd => by simp [addNode, hd]
  have oldOwn : ∀ d < g.size, (addNode g own specs).own d = g.own d := fun d hd => by simp [addNode, hd]
  have new : (addNode g own specs).bases g.size = List.range' (g.size + 1) specs.length := by simp [addNode]
  have newSpec : ∀ d, g.size < d → d < g.size + 1 + specs.length → (addNode g own specs).bases d = [0] := by
    intro d h1 h2
    simp only [addNode]
    rw [if_neg (by omega), if_neg (by omega), if_pos h2]
  have hmem : ∀ q c, (q, c) ∈ Dict.set p g.size nodes ↔ (q, c) ∈ nodes ∨ (q = p ∧ c = g.size) := by
    intro q c; rw [hset]; simp
  have hlt : ∀ q c, (q, c) ∈ nodes → 0 < c ∧ c < g.size := fun q c hc => ⟨(h.laid.comp q c hc).1, (h.laid.comp q c hc).2.1⟩
  have hsize : (addNode g own specs).size = g.size + 1 + specs.length := rfl
  have hbelow : ∀ q c, (q, c) ∈ nodes → ∀ s ∈ g.bases c, s < g.size := fun q c hc s hs => (h.laid.spec q c hc s hs).2.1
  have pos := h.laid.pos
  refine ⟨⟨ok_set h.laid.ok _ _, ?_, ?_, ?_, ?_, fun _ _ _ _ h => (nomatch h), ?_, ?_, ?_, ?_, ?_⟩, ?_, ?_, ?_⟩
  · intro q r c hq hr
    rcases (hmem q c).1 hq with hq1 | ⟨hq1, hc⟩ <;> rcases (hmem r c).1 hr with hr1 | ⟨hr1, hc'⟩
    · exact h.laid.inj q r c hq1 hr1
    · have := hlt q c hq1; omega
    · have := hlt r c hr1; omega
    · rw [hq1, hr1]
  · rw [old 0 h.laid.pos]; exact h.laid.root
  · rw [hsize]; omega
  · intro q c hq
    rw [List.append_nil]
    rcases (hmem q c).1 hq with hq | ⟨rfl, rfl⟩
    · have := hlt q c hq
      exact ⟨this.1, by omega, rfl⟩
    · exact ⟨pos, by omega, rfl⟩
  · intro q c hq s hs'
    rcases (hmem q c).1 hq with hq | ⟨rfl, rfl⟩
    · rw [old c (hlt q c hq).2] at hs'
      obtain ⟨h1, h2, h3, h4⟩ := h.laid.spec q c hq s hs'
      refine ⟨h1, by omega, by rw [old s h2, h3], fun r hr => ?_⟩
      rcases (hmem r s).1 hr with hr | ⟨_, rfl⟩
      · exact h4 r hr
      · omega
    · rw [new, List.mem_range'_1] at hs'
      refine ⟨by omega, by omega, newSpec s (by omega) (by omega), fun r hr => ?_⟩
      rcases (hmem r s).1 hr with hr | ⟨_, rfl⟩
      · have := hlt r s hr; omega
      · omega
  · intro q c hq
    rcases (hmem q c).1 hq with hq | ⟨rfl, rfl⟩
    · rw [old c (hlt q c hq).2]; exact h.laid.nonempty q c hq
    · rw [new]
      intro he
      have := congrArg List.length he
      simp only [List.length_range', List.length_nil] at this
      omega
  · intro q c hq
    rcases (hmem q c).1 hq with hq | ⟨rfl, rfl⟩
    · rw [old c (hlt q c hq).2]; exact h.laid.nodup q c hq
    · rw [new]; exact List.nodup_range'
  · intro q c r d hq hr s hsc hsd
    rcases (hmem q c).1 hq with hq | ⟨_, rfl⟩ <;> rcases (hmem r d).1 hr with hr | ⟨_, rfl⟩
    · rw [old c (hlt q c hq).2] at hsc
      rw [old d (hlt r d hr).2] at hsd
      exact h.laid.disjoint q c r d hq hr s hsc hsd
    · rw [old c (hlt q c hq).2] at hsc
      rw [new, List.mem_range'_1] at hsd
      have := hbelow q c hq s hsc; omega
    · rw [old d (hlt r d hr).2] at hsd
      rw [new, List.mem_range'_1] at hsc
      have := hbelow r d hr s hsd; omega
    · rfl
  · intro s h1 h2 h3
    rw [hsize] at h1
    by_cases hd : s < g.size
    · rw [old s hd]
      exact h.laid.others s hd h2 fun q hq => h3 q ((hmem q s).2 (Or.inl hq))
    · by_cases he : s = g.size
      · exact absurd ((hmem p s).2 (Or.inr ⟨rfl, he⟩)) (h3 p)
      · exact newSpec s (by omega) (by omega)
  · rw [hset]
    have := h.keys
    unfold Dict.keys at this ⊢
    rw [List.map_append, List.map_append, this]; rfl
  · intro n hn'
    rcases List.mem_append.1 hn' with hn' | hn'
    · obtain ⟨c, h1, h2⟩ := h.tables n hn'
      refine ⟨c, (hmem _ _).2 (Or.inl h1), ?_⟩
      rw [← h2]
      unfold tablesOf
      rw [oldOwn c (hlt _ c h1).2, old c (hlt _ c h1).2]
      congr 1
      exact List.map_congr_left fun s hs => oldOwn s (hbelow _ c h1 s hs)
    · rw [List.mem_singleton] at hn'
      subst hn'
      refine ⟨g.size, (hmem _ _).2 (Or.inr ⟨rfl, rfl⟩), ?_⟩
      unfold tablesOf
      rw [new]
      congr 1
      · simp [addNode]
      · apply List.ext_getElem?
        intro i
        rw [List.getElem?_map]
        by_cases hi : i < specs.length
        · rw [List.getElem?_range' hi]
          simp only [Option.map_some, addNode, Nat.one_mul]
          rw [if_neg (by omega), if_neg (by omega), List.getElem?_eq_getElem (by omega)]
          simp only [Nat.add_sub_cancel_left]
          rw [List.getElem?_eq_getElem hi]
          rfl
        · rw [List.getElem?_eq_none (by simpa using hi), List.getElem?_eq_none (by simpa using hi)]; rfl
  · rw [oldOwn 0 h.laid.pos]; exact h.node

/-- Making the classes of nodes with different paths, each with at least one spec. -/
theorem build_built (l : List (Str × Dict Str Val × List (Dict Str Val))) (hn : (l.map Prod.fst).Nodup)
    (hs : ∀ n ∈ l, n.2.2 ≠ []) : Built l (build l).1 (build l).2 := by
  have key : ∀ (l done : List (Str × Dict Str Val × List (Dict Str Val))) (st : Classes × Dict Str Nat),
      ((done ++ l).map Prod.fst).Nodup → (∀ n ∈ l, n.2.2 ≠ []) → Built done st.1 st.2 →
      Built (done ++ l) (l.foldl (fun st n => (addNode st.1 n.2.1 n.2.2, Dict.set n.1 st.1.size st.2)) st).1
        (l.foldl (fun st n => (addNode st.1 n.2.1 n.2.2, Dict.set n.1 st.1.size st.2)) st).2 := by
    intro l
    induction l with
    | nil => intro done st _ _ h; simpa using h
    | cons n l ih =>
      intro done st hn hs h
      rw [List.foldl_cons]
      have e : done ++ n :: l = done ++ [n] ++ l := by simp
      rw [e] at hn ⊢
      refine ih _ _ hn (fun m hm => hs m (List.mem_cons_of_mem _ hm)) ?_
      refine built_cons h n ?_ (hs n List.mem_cons_self)
      rw [List.map_append, List.map_append] at hn
      intro hm
      exact (List.nodup_append.1 (List.nodup_append.1 hn).1).2.2 _ hm _ (by simp) rfl
  exact key l [] (onlyNode, []) hn hs built_nil

end Nxt.Inherit
