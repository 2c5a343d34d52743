import Verif.Lemmas.InheritChain
import Verif.Props.InheritLayers
/-!
# Composing when the instance sources are plain, by paths
-/
namespace Nxt.Inherit
open Dict NodeData Mro Spec Path

variable {g : Classes} {nodes : Dict Str Nat} {specs links : Nat → List Nat} {src : List Str → Option (List Str)}

theorem findSome?_blocks (f : Nat → Option Val) (l : List (List Str)) :
    (blocks nodes specs l).findSome? f = l.findSome? (fun q => (get? (render q) nodes).bind (fun c => (c :: specs c).findSome? f)) := by
  induction l with
  | nil => rfl
  | cons q l ih =>
    rw [blocks_cons, List.findSome?_append, List.findSome?_cons, ih]
    unfold blockOf
    cases hg : get? (render q) nodes with
    | none => rfl
    | some c =>
      simp only [Option.bind_some]
      cases (c :: specs c).findSome? f <;> rfl

/-- A node whose path has no source on it or above it is plain. -/
theorem Sources.plain_node (hs : Sources nodes src) (h : Laid g nodes specs links)
    (hi : ∀ ns c, Names ns → (render ns, c) ∈ nodes → instSource g nodes specs c = (src ns).bind (fun s => get? (render s) nodes))
    {s : List Str} {b : Nat} (hN : Names s) (hb : (render s, b) ∈ nodes) (hsrc : ∀ m, m <+: s → src m = none) :
    Plain g nodes specs b := by
  have one : ∀ s b, Names s → (render s, b) ∈ nodes → (∀ m, m <+: s → src m = none) → instSource g nodes specs b = none := by
    intro s b hN hb hsrc
    rw [hi s b hN hb, hsrc s (List.prefix_refl _)]
    rfl
  refine ⟨one s b hN hb hsrc, fun d hd => ?_⟩
  have step : ∀ s b a, Names s → (render s, b) ∈ nodes → (∀ m, m <+: s → src m = none) → TakesFrom g nodes specs b a →
      ∃ s', Names s' ∧ (render s', a) ∈ nodes ∧ ∀ m, m <+: s' → src m = none := by
    intro s b a hN hb hsrc ht
    cases ht with
    | @parent ns _ _ hN' hc hn =>
      have := render_inj hN' hN (h.inj _ _ _ hc hb)
      subst this
      obtain ⟨l, m, -, -, h3, h4, -⟩ := (near_split ns).2 a hn
      exact ⟨m, prefix_names h4 hN, mem_of_get? h3, fun x hx => hsrc x (hx.trans h4)⟩
    | @«instance» p _ _ hc hn =>
      rw [one s b hN hb hsrc] at hn
      cases hn
  have : ∀ b d, Draws g nodes specs b d → ∀ s, Names s → (render s, b) ∈ nodes → (∀ m, m <+: s → src m = none) →
      instSource g nodes specs d = none := by
    intro b d hd
    induction hd with
    | one ht =>
      intro s hN hb hsrc
      obtain ⟨s', h1, h2, h3⟩ := step s _ _ hN hb hsrc ht
      exact one s' _ h1 h2 h3
    | more ht _ ih =>
      intro s hN hb hsrc
      obtain ⟨s', h1, h2, h3⟩ := step s _ _ hN hb hsrc ht
      exact ih s' h1 h2 h3
  exact this b d hd s hN hb hsrc

theorem arcs_own {d : Nat} : ∀ (order : List (Str × Nat)) (g g' : Classes), (∀ p, (p, d) ∉ order) →
    order.foldlM (instanceArc nodes) g = some g' → g'.own d = g.own d
  | [], g, g', _, h => by cases h; rfl
  | pc :: order, g, g', hd, h => by
    rw [List.foldlM_cons] at h
    obtain ⟨g1, h1, h2⟩ := Option.bind_eq_some_iff.1 h
    rw [arcs_own order g1 g' (fun p hp => hd p (List.mem_cons_of_mem _ hp)) h2]
    have hne : d ≠ pc.2 := fun e => hd pc.1 (e ▸ List.mem_cons_self)
    unfold instanceArc at h1
    split at h1
    · split at h1
      · cases h1; rfl
      · split at h1
        · cases h1; rfl
        · unfold Classes.safeAddBase at h1
          have hset : ∀ {g2 : Classes} {bs : List Nat} {g3 : Classes}, g2.setBases pc.2 bs = some g3 → g3.own = g2.own := by
            intro g2 bs g3 h
            unfold Classes.setBases at h
            dsimp only at h
            split at h
            · rw [← Option.some.inj h]
            · cases h
          rw [← (overload_own pc.1 pc.2 _ OVERLOAD (fun _ h => h) g d []).1 hne]
          split at h1
          · rw [← Option.some.inj h1]
          · split at h1
            · unfold Classes.addBase at h1
              rw [hset h1]
            · rw [hset h1]
    · cases h1; rfl

/-- With plain sources composing succeeds and every node takes from its chain: the order of resolution, and the tables. -/
theorem postProxy_order (h : Laid g nodes specs (fun _ => [])) (hp : ∀ p c, (p, c) ∈ nodes → ∃ ns, Names ns ∧ p = render ns)
    (hpar : ∀ ns c, Names ns → (render ns, c) ∈ nodes → firstTable A_PARENT (tablesOf g specs c) = some (.str (parentText ns)))
    (hins : ∀ p c, (p, c) ∈ nodes → (firstTable A_INSTANCE (tablesOf g specs c)).isSome) (hs : Sources nodes src)
    (hi : ∀ ns c, Names ns → (render ns, c) ∈ nodes → instSource g nodes specs c = (src ns).bind (fun s => get? (render s) nodes))
    {order : List (Str × Nat)} (ho : order.Perm nodes) :
    ∃ g' links, postProxy nodes order g = some g' ∧ Laid g' nodes specs links ∧
      (∀ ns c, Names ns → (render ns, c) ∈ nodes → g'.mro c = some (blocks nodes specs (chain src ns) ++ [0])) ∧
      (∀ d k, Untouched k → get? k (g'.own d) = get? k (g.own d)) ∧
      ∀ d, (∀ p, (p, d) ∉ nodes) → g'.own d = g.own d := by
  have hplain : ∀ p c b, (p, c) ∈ nodes → instSource g nodes specs c = some b → Plain g nodes specs b := by
    intro p c b hc hb
    obtain ⟨ns, hN, rfl⟩ := hp p c hc
    rw [hi ns c hN hc] at hb
    cases hsrc : src ns with
    | none => rw [hsrc] at hb; cases hb
    | some s =>
      rw [hsrc] at hb
      exact Sources.plain_node hs h hi (hs.node ns s hsrc).1 (mem_of_get? hb) (fun m hm => hs.plain ns s m hsrc hm)
  have hnd : order.Nodup := ho.nodup_iff.2 ((List.pairwise_map.1 h.ok).imp fun hne he => hne (congrArg Prod.fst he))
  obtain ⟨g1, h1, h2, h3, links1, h4, h5⟩ := parents_fold (g0 := g) hp hpar order [] g
    (fun x hx => ho.mem_iff.1 hx) (by simpa using hnd) ⟨rfl, rfl, _, h, fun ns c _ _ => by simp⟩
  have hlinks : ∀ ns c, Names ns → (render ns, c) ∈ nodes → links1 c = (nearestAbove nodes ns).toList := by
    intro ns c hN hc
    rw [h5 ns c hN hc, if_pos (by simpa using ho.mem_iff.2 hc)]
  have ht : tablesOf g1 specs = tablesOf g specs := by funext d; unfold tablesOf; rw [h2]
  have hi1 : instSource g1 nodes specs = instSource g nodes specs := by
    funext c; unfold instSource; rw [ht]
  obtain ⟨g', links, hg', hd⟩ := plain_fold (g1 := g1) (P := Plain g nodes specs) hp (by rw [ht]; exact hins) order [] g1 links1
    (fun x hx => ho.mem_iff.1 hx) (by simpa using hnd)
    ⟨h4, fun _ _ _ => rfl, by
      rw [hi1]
      refine ⟨fun c hc => hc.1, fun ns c a hN hc hP hn => ?_, fun p c b hc hb => ⟨hplain p c b hc hb, instSource_mem hb⟩,
        fun ns c hN hc => Or.inl (hlinks ns c hN hc)⟩
      have hca : Draws g nodes specs c a := .one (.parent hN hc hn)
      exact ⟨hP.2 a hca, fun d hd => hP.2 d (Props.Draws.trans hca hd)⟩, fun ns c hN hc _ => hlinks ns c hN hc, fun _ _ _ _ h => nomatch h⟩
  refine ⟨g', links, by unfold postProxy; rw [h1, Option.bind_some, hg'], hd.laid, fun ns c hN hc => ?_, fun d k hk => by
    rw [hd.own d k (Props.untouched hk), h2], fun d hn => by
    rw [arcs_own order g1 g' (fun p hp => hn p (ho.mem_iff.1 hp)) hg', h2]⟩
  have hlin := Laid.chain_order hd.laid hs (fun ns c hN hc => by
    rw [hd.yes ns c hN hc (by simpa using ho.mem_iff.2 hc), hi1, hi ns c hN hc]) (ns.length + 1) ns c (by omega) hN
    (get?_of_mem h.ok hc)
  exact (Laid.mro_iff hd.laid (hd.laid.comp _ _ hc).2.1).2 hlin

/-- What is read along the order of resolution. -/
theorem attr_blocks {g' : Classes} {c : Nat} {l : List (List Str)} (hmro : g'.mro c = some (blocks nodes specs l ++ [0])) (k : Str) :
    g'.attr? c k = (l.findSome? (fun q => (get? (render q) nodes).bind (fun d => firstTable k (tablesOf g' specs d)))).or
      (get? k (g'.own 0)) := by
  unfold Classes.attr?
  rw [hmro]
  rw [Option.bind_some, List.findSome?_append, findSome?_blocks]
  congr 1
  · congr 1
    funext q
    cases get? (render q) nodes with
    | none => rfl
    | some d =>
      simp only [Option.bind_some]
      unfold firstTable tablesOf
      rw [List.findSome?_cons, List.findSome?_cons, List.findSome?_map]
      rfl
  · rw [List.findSome?_cons, List.findSome?_nil]
    cases get? k (g'.own 0) <;> rfl

end Nxt.Inherit
