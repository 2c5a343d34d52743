import Verif.Lemmas.Exec
/-!
# Properties C36, C37: execution order
-/
namespace Nxt.Props
open Dict Tree Exec Spec Path

/-! ## C37 -/

/-- C37: a result is the chain of roots from the start, whatever the number of rounds allowed. -/
theorem C37_chain (nodes : Nodes) (s : Str) (l : List Str) :
    (∃ fuel, rootOrder nodes fuel s = some l) ↔ ExecChain nodes s l := by
  constructor
  · rintro ⟨fuel, h⟩
    obtain ⟨t, h1, h2⟩ := rootLoop_chain h
    rw [h1]; exact h2
  · intro h
    refine ⟨l.length, ?_⟩
    unfold rootOrder
    rw [chain_rootLoop h [s] l.length (Nat.le_refl _)]
    cases h <;> rfl

/-- C37: without a cycle the loop ends after at most one round per node, with every root once. -/
theorem C37_terminates (nodes : Nodes) (s : Str) (hc : ¬ Cyclic nodes s) (fuel : Nat)
    (hf : (keys nodes).length + 1 ≤ fuel) : ∃ l, rootOrder nodes fuel s = some l ∧ l.Nodup := by
  obtain ⟨r, hr⟩ := rootLoop_terminates hc fuel s [s] (by simp) (.inl rfl) (by simp) (by simp) (by simp)
    (by simpa using by omega)
  refine ⟨r, hr, ?_⟩
  have hch := (C37_chain nodes s r).1 ⟨fuel, hr⟩
  have key : ∀ {p : Str} {l : List Str}, ExecChain nodes p l → ¬ Cyclic nodes p →
      l.Nodup ∧ ∀ x ∈ l, x = p ∨ Below (IsNextRoot nodes) p x := by
    intro p l h
    induction h with
    | last _ => intro _; simp
    | @cons p q l hq hl ih =>
      intro hc
      have hpre : ∀ {x}, (x = q ∨ Below (IsNextRoot nodes) q x) → Below (IsNextRoot nodes) p x := by
        intro x hx
        rcases hx with rfl | hx
        · exact .one hq
        · induction hx with
          | one h => exact .step (.one hq) h
          | step _ h ih => exact .step ih h
      have hcq : ¬ Cyclic nodes q := by
        rintro ⟨c, h1, h2⟩
        exact hc ⟨c, .inr (hpre h1), h2⟩
      obtain ⟨i1, i2⟩ := ih hcq
      refine ⟨List.nodup_cons.2 ⟨fun h => ?_, i1⟩, fun x hx => ?_⟩
      · exact hc ⟨p, .inl rfl, hpre (i2 p h)⟩
      · rcases List.mem_cons.1 hx with rfl | hx
        · exact .inl rfl
        · exact .inr (hpre (i2 x hx))
  exact (key hch hc).1

/-- C37 fails with a cycle: the loop never ends. -/
theorem C37_cycle_violation (nodes : Nodes) (s : Str) (hc : Cyclic nodes s) (fuel : Nat) :
    rootOrder nodes fuel s = none := rootLoop_cyclic fuel s [s] hc

/-- Three roots; `/b` runs after `/a`, `/c` after `/b`. -/
def execSample : Nodes := [
  ("/c".toList, ⟨"c".toList, "/".toList, [], .none, .str "/b".toList⟩),
  ("/a".toList, ⟨"a".toList, "/".toList, [], .none, .none⟩),
  ("/a/x".toList, ⟨"x".toList, "/a".toList, [], .none, .none⟩),
  ("/a/y".toList, ⟨"y".toList, "/a".toList, [], .bool false, .none⟩),
  ("/a/y/z".toList, ⟨"z".toList, "/a/y".toList, [], .none, .none⟩),
  ("/a/w".toList, ⟨"w".toList, "/a".toList, [], .none, .none⟩),
  ("/b".toList, ⟨"b".toList, "/".toList, [], .bool false, .str "/a".toList⟩),
  ("/b/k".toList, ⟨"k".toList, "/b".toList, [], .none, .none⟩)]

example : rootOrder execSample 9 "/a".toList = some ["/a".toList, "/b".toList, "/c".toList] := by decide +kernel

/-- A root which executes after itself. -/
example : Cyclic [("/a".toList, ⟨"a".toList, "/".toList, [], .none, .str "/a".toList⟩)] "/a".toList :=
  ⟨_, .inl rfl, .one ⟨[], _, [], rfl, rfl, rfl, by simp⟩⟩

/-- No cycle in the sample. -/
example : ¬ Cyclic execSample "/a".toList := by
  intro h
  have := C37_cycle_violation execSample _ h 9
  exact absurd this (by decide +kernel)

/-! ## C36 -/

/-- One root of the loop of `get_exec_order`, start node already met or met at this root. -/
theorem rootStep_found (nodes : Nodes) (kids : Str → Nodes) (T : TreeOk nodes) (K : KidsOk nodes kids) (fuel : Nat)
    (start : Str) (ns : List Str) (hn : Names ns) (h0 : ns ≠ []) (hk : render ns ∈ keys nodes) (D : List Str)
    (hD : descendantsOrdered nodes kids false fuel (render ns) = some D) (found : Bool) (order : List Str)
    (hf : found = true ∨ render ns = start) :
    rootStep nodes (descendantsOrdered nodes kids false fuel) start (found, order) (render ns) =
      some (true, order ++ rootBlock nodes D (render ns)) := by
  obtain ⟨-, l2, l3⟩ := listing_spec T K hn h0 hk hD
  have hs := descScan_spec nodes start D (fun q hq => listing_proper ((l2 q).1 hq)) (listing_anc hn l2 l3) true
    (order ++ [render ns])
  have hfound : (if !found ∧ render ns = start then true else found) = true := by
    rcases hf with rfl | h
    · simp
    · cases found <;> simp [h]
  unfold rootStep
  simp only
  rw [hfound]
  unfold rootBlock
  by_cases hoff : Off nodes (render ns)
  · have : isEnabled nodes (render ns) = false := by
      rw [← Bool.not_eq_true, isEnabled_iff]; exact fun h => h hoff
    rw [if_pos ⟨rfl, by rw [this]; rfl⟩, if_pos hoff, List.append_nil]
  · have : isEnabled nodes (render ns) = true := (isEnabled_iff nodes _).2 hoff
    rw [if_neg (by rw [this]; simp), if_neg hoff, hD]
    simp only [if_true]
    rw [hs.1, hs.2]
    simp

/-- One root of the loop, the start node not met before and not this root. -/
theorem rootStep_search (nodes : Nodes) (kids : Str → Nodes) (T : TreeOk nodes) (K : KidsOk nodes kids) (fuel : Nat)
    (start : Str) (ns : List Str) (hn : Names ns) (h0 : ns ≠ []) (hk : render ns ∈ keys nodes) (D : List Str)
    (hD : descendantsOrdered nodes kids false fuel (render ns) = some D) (order : List Str)
    (hf : render ns ≠ start) :
    rootStep nodes (descendantsOrdered nodes kids false fuel) start (false, order) (render ns) =
      some (decide (start ∈ D), order ++ running nodes D (D.dropWhile (fun x => decide (x ≠ start)))) := by
  obtain ⟨-, l2, l3⟩ := listing_spec T K hn h0 hk hD
  have hs := descScan_spec nodes start D (fun q hq => listing_proper ((l2 q).1 hq)) (listing_anc hn l2 l3) false order
  unfold rootStep
  simp only [hf, and_false, if_false, Bool.false_eq_true, false_and, hD]
  rw [hs.1, hs.2]
  simp

theorem roots_found (nodes : Nodes) (kids : Str → Nodes) (T : TreeOk nodes) (K : KidsOk nodes kids) (fuel : Nat)
    (start : Str) (D : Str → List Str) (roots : List Str)
    (hr : ∀ r ∈ roots, Proper r ∧ r ∈ keys nodes)
    (hD : ∀ r ∈ roots, descendantsOrdered nodes kids false fuel r = some (D r)) (order : List Str) :
    roots.foldlM (rootStep nodes (descendantsOrdered nodes kids false fuel) start) (true, order) =
      some (true, order ++ roots.flatMap (fun r => rootBlock nodes (D r) r)) := by
  induction roots generalizing order with
  | nil => simp
  | cons r roots ih =>
    obtain ⟨⟨ns, n1, n2, n3⟩, hk⟩ := hr r List.mem_cons_self
    have hd := hD r List.mem_cons_self
    rw [n3] at hk hd
    rw [List.foldlM_cons, n3, rootStep_found nodes kids T K fuel start ns n1 n2 hk _ hd true order (.inl rfl)]
    rw [n3] at *
    show List.foldlM _ (true, _) roots = _
    rw [ih (fun r h => hr r (List.mem_cons_of_mem _ h)) (fun r h => hD r (List.mem_cons_of_mem _ h))]
    simp

/-- The roots of a chain are nodes below the world. -/
theorem chain_roots (nodes : Nodes) (T : TreeOk nodes) {p : Str} {l : List Str} (h : ExecChain nodes p l)
    (hp : Proper p ∧ p ∈ keys nodes) : ∃ t, l = p :: t ∧ ∀ r ∈ l, Proper r ∧ r ∈ keys nodes := by
  induction h with
  | last _ => exact ⟨[], rfl, by simpa using hp⟩
  | @cons p q l hq hl ih =>
    have hq' : Proper q ∧ q ∈ keys nodes := by
      refine ⟨?_, nextRoot_mem hq⟩
      obtain ⟨A, n, B, h1, h2, -⟩ := hq
      rcases T.node q n (by rw [h1]; simp) with ⟨h, h'⟩ | ⟨ms, z, m1, m2, m3, -⟩
      · rw [h'.1] at h2; cases h2
      · exact ⟨ms ++ [z], m1, by simp, m2⟩
    obtain ⟨t, h1, h2⟩ := ih hq'
    refine ⟨l, rfl, fun r hr => ?_⟩
    rcases List.mem_cons.1 hr with rfl | hr
    · exact hp
    · exact h2 r hr

/-- C36: started at a root, every root of the chain which is not switched off is followed by those of its
descendants which are neither switched off nor below a switched off descendant, in listing order. -/
theorem C36_from_root (nodes : Nodes) (kids : Str → Nodes) (T : TreeOk nodes) (K : KidsOk nodes kids) (fuel : Nat)
    (x : Str) (hx : Names [x]) (hk : render [x] ∈ keys nodes) (roots : List Str)
    (hr : rootOrder nodes fuel (render [x]) = some roots) (D : Str → List Str)
    (hD : ∀ r ∈ roots, descendantsOrdered nodes kids false fuel r = some (D r)) :
    execOrder nodes kids fuel (render [x]) = some (roots.flatMap (fun r => rootBlock nodes (D r) r)) := by
  have hp : Proper (render [x]) := ⟨[x], hx, by simp, rfl⟩
  obtain ⟨t, rfl, h2⟩ := chain_roots nodes T ((C37_chain _ _ _).1 ⟨fuel, hr⟩) ⟨hp, hk⟩
  have hw : render [x] ≠ WORLD := fun h => by simpa using (render_eq_world hx).1 h
  unfold execOrder
  rw [if_neg hw]
  have hroot : rootPath (render [x]) = render [x] := C11_root [x] hx
  rw [hroot, hr]
  simp only
  rw [List.foldlM_cons, rootStep_found nodes kids T K fuel _ [x] hx (by simp) hk _ (hD _ List.mem_cons_self) false []
    (.inr rfl)]
  show Option.map _ (List.foldlM _ (true, _) t) = _
  rw [roots_found nodes kids T K fuel _ D t (fun r h => h2 r (List.mem_cons_of_mem _ h))
    (fun r h => hD r (List.mem_cons_of_mem _ h))]
  simp

/-- C36, except that a disabled root is not honoured (`C36_disabled_root_violation`): started below a root,
what is left of the listing of that root from the start node on, then the
other roots as a whole. -/
theorem C36_from_inside_partial (nodes : Nodes) (kids : Str → Nodes) (T : TreeOk nodes) (K : KidsOk nodes kids)
    (fuel : Nat) (x : Str) (rest : List Str) (hx : Names (x :: rest)) (h0 : rest ≠ []) (hk : render [x] ∈ keys nodes)
    (roots : List Str) (hr : rootOrder nodes fuel (render [x]) = some (render [x] :: roots)) (D : Str → List Str)
    (hD : ∀ r ∈ render [x] :: roots, descendantsOrdered nodes kids false fuel r = some (D r))
    (hs : render (x :: rest) ∈ D (render [x])) :
    execOrder nodes kids fuel (render (x :: rest)) =
      some (running nodes (D (render [x])) ((D (render [x])).dropWhile (fun q => decide (q ≠ render (x :: rest)))) ++
        roots.flatMap (fun r => rootBlock nodes (D r) r)) := by
  have hx1 : Names [x] := (names_append.1 (show Names ([x] ++ rest) from hx)).1
  have hp : Proper (render [x]) := ⟨[x], hx1, by simp, rfl⟩
  obtain ⟨t, ht, h2⟩ := chain_roots nodes T ((C37_chain _ _ _).1 ⟨fuel, hr⟩) ⟨hp, hk⟩
  cases ht
  have hw : render (x :: rest) ≠ WORLD := fun h => by simpa using (render_eq_world hx).1 h
  have hne : render [x] ≠ render (x :: rest) := fun h => h0 (by simpa using (render_inj hx1 hx h).symm)
  unfold execOrder
  rw [if_neg hw]
  have hroot : rootPath (render (x :: rest)) = render [x] := C11_root (x :: rest) hx
  rw [hroot, hr]
  simp only
  rw [List.foldlM_cons, rootStep_search nodes kids T K fuel _ [x] hx1 (by simp) hk _ (hD _ List.mem_cons_self) []
    hne]
  rw [decide_eq_true hs]
  show Option.map _ (List.foldlM _ (true, _) roots) = _
  rw [roots_found nodes kids T K fuel _ D roots (fun r h => h2 r (List.mem_cons_of_mem _ h))
    (fun r h => hD r (List.mem_cons_of_mem _ h))]
  simp

/-- C36: a start node which no listing of the chain holds gives an empty order. -/
theorem C36_unlisted_start (nodes : Nodes) (kids : Str → Nodes) (T : TreeOk nodes) (K : KidsOk nodes kids)
    (fuel : Nat) (x : Str) (rest : List Str) (hx : Names (x :: rest)) (hk : render [x] ∈ keys nodes)
    (roots : List Str) (hr : rootOrder nodes fuel (render [x]) = some roots) (D : Str → List Str)
    (hD : ∀ r ∈ roots, descendantsOrdered nodes kids false fuel r = some (D r))
    (hs : ∀ r ∈ roots, render (x :: rest) ≠ r ∧ render (x :: rest) ∉ D r) :
    execOrder nodes kids fuel (render (x :: rest)) = some [] := by
  have hx1 : Names [x] := (names_append.1 (show Names ([x] ++ rest) from hx)).1
  have hp : Proper (render [x]) := ⟨[x], hx1, by simp, rfl⟩
  obtain ⟨t, -, h2⟩ := chain_roots nodes T ((C37_chain _ _ _).1 ⟨fuel, hr⟩) ⟨hp, hk⟩
  have hw : render (x :: rest) ≠ WORLD := fun h => by simpa using (render_eq_world hx).1 h
  unfold execOrder
  rw [if_neg hw]
  have hroot : rootPath (render (x :: rest)) = render [x] := C11_root (x :: rest) hx
  rw [hroot, hr]
  simp only
  have key : ∀ roots : List Str, (∀ r ∈ roots, Proper r ∧ r ∈ keys nodes) →
      (∀ r ∈ roots, descendantsOrdered nodes kids false fuel r = some (D r)) →
      (∀ r ∈ roots, render (x :: rest) ≠ r ∧ render (x :: rest) ∉ D r) →
      roots.foldlM (rootStep nodes (descendantsOrdered nodes kids false fuel) (render (x :: rest))) (false, []) =
        some (false, []) := by
    intro roots
    induction roots with
    | nil => intros; rfl
    | cons r roots ih =>
      intro a1 a2 a3
      obtain ⟨⟨ns, n1, n2, rfl⟩, hk⟩ := a1 r List.mem_cons_self
      obtain ⟨b1, b2⟩ := a3 _ List.mem_cons_self
      rw [List.foldlM_cons, rootStep_search nodes kids T K fuel _ ns n1 n2 hk _ (a2 _ List.mem_cons_self) []
        (Ne.symm b1), dropWhile_none b2, decide_eq_false b2]
      exact ih (fun r h => a1 r (List.mem_cons_of_mem _ h)) (fun r h => a2 r (List.mem_cons_of_mem _ h))
        (fun r h => a3 r (List.mem_cons_of_mem _ h))
  rw [key roots h2 hD hs]
  rfl

/-- C36: with the roots free of cycles and the root of the start node present the order is computed. -/
theorem C36_terminates (nodes : Nodes) (kids : Str → Nodes) (T : TreeOk nodes) (K : KidsOk nodes kids)
    (x : Str) (rest : List Str) (hx : Names (x :: rest)) (hk : render [x] ∈ keys nodes)
    (hc : ¬ Cyclic nodes (render [x])) :
    ∃ N, ∀ fuel, N ≤ fuel → ∃ (roots : List Str) (D : Str → List Str), rootOrder nodes fuel (render [x]) = some roots ∧
      (∀ r ∈ roots, descendantsOrdered nodes kids false fuel r = some (D r)) ∧
      ∃ l, execOrder nodes kids fuel (render (x :: rest)) = some l := by
  have hx1 : Names [x] := (names_append.1 (show Names ([x] ++ rest) from hx)).1
  have hp : Proper (render [x]) := ⟨[x], hx1, by simp, rfl⟩
  obtain ⟨roots, hr, -⟩ := C37_terminates nodes (render [x]) hc _ (Nat.le_refl _)
  have hch := (C37_chain _ _ _).1 ⟨_, hr⟩
  obtain ⟨t, -, h2⟩ := chain_roots nodes T hch ⟨hp, hk⟩
  have hall : ∀ r ∈ keys nodes, Proper r → ∃ N, ∀ fuel, N ≤ fuel → ∃ d, descendantsOrdered nodes kids false fuel r = some d := by
    rintro r hrk ⟨ns, n1, n2, rfl⟩
    obtain ⟨N, hN⟩ := C47_ordered nodes kids T K ns n1 n2 hrk
    exact ⟨N, fun fuel hf => let ⟨d, hd, _⟩ := hN fuel hf; ⟨d, hd⟩⟩
  have hbound : ∀ l : List Str, (∀ r ∈ l, Proper r ∧ r ∈ keys nodes) →
      ∃ N, ∀ fuel, N ≤ fuel → ∀ r ∈ l, ∃ d, descendantsOrdered nodes kids false fuel r = some d := by
    intro l
    induction l with
    | nil => intro _; exact ⟨0, fun _ _ r hr => by cases hr⟩
    | cons a l ih =>
      intro h
      obtain ⟨N, hN⟩ := ih (fun r hr => h r (List.mem_cons_of_mem _ hr))
      obtain ⟨M, hM⟩ := hall a (h a List.mem_cons_self).2 (h a List.mem_cons_self).1
      refine ⟨max N M, fun fuel hf r hr => ?_⟩
      rcases List.mem_cons.1 hr with rfl | hr
      · exact hM fuel (by omega)
      · exact hN fuel (by omega) r hr
  obtain ⟨N, hN⟩ := hbound roots h2
  refine ⟨max N roots.length, fun fuel hf => ?_⟩
  have hr' : rootOrder nodes fuel (render [x]) = some roots := by
    unfold rootOrder
    rw [chain_rootLoop hch [render [x]] fuel (by omega)]
    cases hch <;> rfl
  have hD : ∀ r ∈ roots, descendantsOrdered nodes kids false fuel r =
      some ((descendantsOrdered nodes kids false fuel r).getD []) := by
    intro r hr
    obtain ⟨d, hd⟩ := hN fuel (by omega) r hr
    rw [hd]; rfl
  refine ⟨roots, _, hr', hD, ?_⟩
  have hw : render (x :: rest) ≠ WORLD := fun h => by simpa using (render_eq_world hx).1 h
  unfold execOrder
  rw [if_neg hw]
  have hroot : rootPath (render (x :: rest)) = render [x] := C11_root (x :: rest) hx
  rw [hroot, hr']
  simp only
  have key : ∀ (l : List Str), (∀ r ∈ l, ∃ d, descendantsOrdered nodes kids false fuel r = some d) → ∀ st,
      ∃ st', l.foldlM (rootStep nodes (descendantsOrdered nodes kids false fuel) (render (x :: rest))) st = some st' := by
    intro l
    induction l with
    | nil => intro _ st; exact ⟨st, rfl⟩
    | cons a l ih =>
      intro h st
      obtain ⟨d, hd⟩ := h a List.mem_cons_self
      have : ∃ st', rootStep nodes (descendantsOrdered nodes kids false fuel) (render (x :: rest)) st a = some st' := by
        unfold rootStep
        simp only [hd]
        repeat (first | exact ⟨_, rfl⟩ | split)
      obtain ⟨st', hst'⟩ := this
      rw [List.foldlM_cons, hst']
      exact ih (fun r hr => h r (List.mem_cons_of_mem _ hr)) st'
  obtain ⟨st', hst'⟩ := key roots (fun r hr => ⟨_, hD r hr⟩) (false, [])
  exact ⟨st'.2, by rw [hst']; rfl⟩

/-- C36 fails below a disabled root: the root is disabled, yet a start node inside it runs. -/
theorem C36_disabled_root_violation :
    let kids := scan (fun a b => a == b) execSample
    Off execSample "/b".toList ∧ execOrder execSample kids 9 "/b".toList = some ["/c".toList] ∧
    execOrder execSample kids 9 "/b/k".toList = some ["/b/k".toList, "/c".toList] := by
  refine ⟨⟨_, rfl, by simp, rfl⟩, ?_⟩
  decide +kernel

/-- C36: the order needs the root of the start node to exist. -/
theorem C36_missing_root (nodes : Nodes) (kids : Str → Nodes) (x : Str) (rest : List Str) (hx : Names (x :: rest))
    (h0 : rest ≠ []) (hk : render [x] ∉ keys nodes) (fuel : Nat) :
    execOrder nodes kids fuel (render (x :: rest)) = none := by
  have hx1 : Names [x] := (names_append.1 (show Names ([x] ++ rest) from hx)).1
  have hw : render (x :: rest) ≠ WORLD := fun h => by simpa using (render_eq_world hx).1 h
  have hw1 : render [x] ≠ WORLD := fun h => by simpa using (render_eq_world hx1).1 h
  have hne : render [x] ≠ render (x :: rest) := fun h => h0 (by simpa using (render_inj hx1 hx h).symm)
  unfold execOrder
  rw [if_neg hw]
  have hroot : rootPath (render (x :: rest)) = render [x] := C11_root (x :: rest) hx
  rw [hroot]
  cases hr : rootOrder nodes fuel (render [x]) with
  | none => rfl
  | some roots =>
    obtain ⟨t, rfl⟩ : ∃ t, roots = render [x] :: t := by
      have h := (C37_chain _ _ _).1 ⟨fuel, hr⟩
      cases h <;> exact ⟨_, rfl⟩
    have hd : descendantsOrdered nodes kids false fuel (render [x]) = none := by
      unfold descendantsOrdered
      rw [if_neg hw1]
      cases fuel with
      | zero => rfl
      | succ fuel =>
        rw [orderedDesc, C46_missing_node nodes _ _ (render_ne_empty _) hk]
    simp only
    rw [List.foldlM_cons]
    unfold rootStep
    simp only [hne, and_false, if_false, Bool.false_eq_true, false_and, hd]
    rfl

/-- The sample: `/a/y` is off, `/b` is off. -/
example :
    let kids := scan (fun a b => a == b) execSample
    execOrder execSample kids 9 "/a".toList =
      some ["/a".toList, "/a/x".toList, "/a/w".toList, "/c".toList] ∧
    execOrder execSample kids 9 "/a/y/z".toList = some ["/a/w".toList, "/c".toList] ∧
    descendantsOrdered execSample kids false 9 "/a".toList =
      some ["/a/x".toList, "/a/y".toList, "/a/y/z".toList, "/a/w".toList] := by decide +kernel

end Nxt.Props
