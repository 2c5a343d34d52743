import Verif.Lemmas.Flow
import Verif.Props.Times
import Verif.Props.InheritLayers
/-!
# Property C116: what a node sees during an execution
-/
namespace Nxt.Props
open Dict NodeData Mro Rt Spec Flow

namespace Flowing

theorem lastWritten_cons (w : Wrote) (h : List Wrote) (d : Nat) (a : Str) :
    lastWritten (w :: h) d a = (lastWritten h d a).or (if w.cls = d then w.vals a else none) := by
  have key : ∀ (h : List Wrote) (r : Option Val), h.foldl (fun r w => if w.cls = d then (w.vals a).or r else r) r =
      (lastWritten h d a).or r := by
    intro h
    induction h with
    | nil => intro r; rfl
    | cons w h ih =>
      intro r
      unfold lastWritten
      rw [List.foldl_cons, List.foldl_cons, ih, ih]
      split
      · rw [Option.or_none, Option.or_assoc]
      · rw [Option.or_none]
  unfold lastWritten
  rw [List.foldl_cons, key]
  congr 1
  split
  · rw [Option.or_none]
  · rfl

/-- A run at the start is the same as another start. -/
theorem sees_cons {init init' : Nat → Str → Option Val} {w : Wrote} {a : Str}
    (hi : ∀ d, init' d a = if w.cls = d then (w.vals a).or (init d a) else init d a) (h : List Wrote) (l : List Nat) :
    sees init' h l a = sees init (w :: h) l a := by
  unfold sees
  congr 1
  funext d
  unfold holds
  rw [lastWritten_cons, hi]
  split
  · rw [Option.or_assoc]
  · rw [Option.or_none]

theorem mro_head {g : Classes} {c : Nat} (h : (g.mro c).isSome) : ∃ rest, g.mro c = some (c :: rest) := by
  obtain ⟨l, hl⟩ := Option.isSome_iff_exists.1 h
  have hl' := hl
  unfold Classes.mro at hl'
  cases hn : g.size with
  | zero => rw [hn, lin] at hl'; cases hl'
  | succ n =>
    rw [hn, lin] at hl'
    split at hl'
    · cases hl'
    · rename_i ls _
      cases hm : merge (ls ++ [g.bases c]) with
      | none => rw [hm] at hl'; cases hl'
      | some r =>
        rw [hm] at hl'
        cases hl'
        exact ⟨r, hl⟩

theorem mro_congr {g g' : Classes} (hb : g'.bases = g.bases) (hs : g'.size = g.size) (d : Nat) : g'.mro d = g.mro d := by
  unfold Classes.mro
  rw [hb, hs]

theorem says_congr {e : Env} {resolve : Str → Option Str} {code : Str} {globals : Dict Str Val} {found found' : Str → Option Val}
    {out : Exec.Outcome} {w : Str → Option Val} (hf : ∀ a, FlowName e.builtins a → found' a = found a)
    (h : RunSays e resolve code globals found out w) : RunSays e resolve code globals found' out w := by
  rcases h with ⟨⟨a, v, h1, h2, h3⟩, h4⟩ | ⟨f, h1, h2, h3⟩
  · exact .inl ⟨⟨a, v, h1, by rw [hf a h1, h2], h3⟩, h4⟩
  · exact .inr ⟨f, h1, fun a ha => by rw [hf a ha]; exact h2 a ha, h3⟩

theorem attr?_sees (g : Classes) (d : Nat) (a : Str) :
    g.attr? d a = (g.mro d).bind (fun l => sees (fun d a => get? a (g.own d)) [] l a) := by
  unfold Classes.attr? sees holds lastWritten
  rfl

/-- The enabled state does not change. -/
theorem enabled_kept (e : Env) (hk : Keeps e) (nodes : Dict Str Nat) (p : Str) (s : State) (ts : Exec.Times) :
    enabledAt nodes (runAt e nodes p s ts).2.1 = enabledAt nodes s := by
  funext q
  unfold runAt
  cases hp : get? p nodes with
  | none => rfl
  | some c =>
    obtain ⟨h3, h4, h5, h6⟩ := runNode_rest e hk p c s
    unfold enabledAt
    cases hq : get? q nodes with
    | none => rfl
    | some d =>
      simp only [Option.map_some]
      congr 1
      unfold Classes.attr Classes.attr?
      rw [mro_congr h4 h5]
      congr 1
      congr 1
      funext l
      congr 1
      funext k
      by_cases hkc : k = c
      · subst hkc
        exact h6 _ (by decide +kernel) (by decide +kernel)
      · rw [h3 k hkc]

theorem holds_cons {init init' : Nat → Str → Option Val} {w : Wrote} {a : Str}
    (hi : ∀ d, init' d a = if w.cls = d then (w.vals a).or (init d a) else init d a) (h : List Wrote) (d : Nat) :
    holds init' h d a = holds init (w :: h) d a := by
  unfold holds
  rw [lastWritten_cons, hi]
  split
  · rw [Option.or_assoc]
  · rw [Option.or_none]

/-- The runs one after another. -/
theorem chain_flow (e : Env) (hk : Keeps e) (nodes : Dict Str Nat) {s s' : State} {tr : List (Str × Exec.Outcome)}
    (h : RunChain (runAt e nodes) s tr s') (hin : ∀ x ∈ tr, (get? x.1 nodes).isSome)
    (hm : ∀ p c, get? p nodes = some c → (s.classes.mro c).isSome) :
    ∃ hist : List Wrote,
      hist.map (fun w => some w.cls) = tr.map (fun x => get? x.1 nodes) ∧
      s'.classes.size = s.classes.size ∧ s'.classes.bases = s.classes.bases ∧
      (∀ d a, FlowName e.builtins a →
        get? a (s'.classes.own d) = holds (fun d a => get? a (s.classes.own d)) hist d a) ∧
      ∀ i w x, hist[i]? = some w → tr[i]? = some x → ∃ (g g' : Classes) (globals : Dict Str Val),
        (∀ d a, FlowName e.builtins a →
          g.attr? d a = (s.classes.mro d).bind (fun l => sees (fun d a => get? a (s.classes.own d)) (hist.take i) l a) ∧
          g'.attr? d a = g.attr? d a) ∧
        RunSays e (e.resolve g' w.cls) (e.code g w.cls) globals (g.attr? w.cls) x.2 w.vals := by
  induction h with
  | nil =>
    refine ⟨[], rfl, rfl, rfl, fun d a _ => rfl, fun i w x h => ?_⟩
    simp at h
  | @cons s s' p ts tr _ ih =>
    obtain ⟨c, hc⟩ := Option.isSome_iff_exists.1 (hin _ List.mem_cons_self)
    replace hc : get? p nodes = some c := hc
    obtain ⟨rest, hr⟩ := mro_head (hm p c hc)
    obtain ⟨w, w1, w2⟩ := runNode_says e hk p hr
    obtain ⟨w3, w4, w5, w6⟩ := runNode_rest e hk p c s
    have hs1 : (runAt e nodes p s ts).2.1 = (runNode e p c s).2 := by unfold runAt; rw [hc]
    have ho1 : (runAt e nodes p s ts).1 = outcome (runNode e p c s).1 := by unfold runAt; rw [hc]
    rw [hs1] at ih
    rw [ho1]
    have hmro : ∀ d, (runNode e p c s).2.classes.mro d = s.classes.mro d := mro_congr w4 w5
    obtain ⟨hist, i1, i2, i2', i3, i4⟩ := ih (fun x hx => hin x (List.mem_cons_of_mem _ hx))
      (fun q d hq => by rw [hmro]; exact hm q d hq)
    have hinit : ∀ a, FlowName e.builtins a → ∀ d, get? a ((runNode e p c s).2.classes.own d) =
        if (Wrote.mk c w).cls = d then ((Wrote.mk c w).vals a).or (get? a (s.classes.own d)) else get? a (s.classes.own d) := by
      intro a ha d
      simp only
      split
      · rename_i hd
        subst hd
        exact w2 a ha
      · rename_i hd
        rw [w3 d (fun hh => hd hh.symm)]
    refine ⟨⟨c, w⟩ :: hist, ?_, by rw [i2, w5], by rw [i2', w4], ?_, ?_⟩
    · rw [List.map_cons, List.map_cons, i1]
      simp only [hc]
    · intro d a ha
      rw [i3 d a ha]
      exact holds_cons (hinit a ha) _ _
    · intro i w' x hw hx
      cases i with
      | zero =>
        simp only [List.getElem?_cons_zero, Option.some.injEq] at hw hx
        subst hw hx
        refine ⟨s.classes, cached e s.classes c, s.globals, fun d a ha => ⟨attr?_sees _ d a, attr?_cached e _ _ ha.ne_cached _⟩, ?_⟩
        exact w1
      | succ i =>
        rw [List.getElem?_cons_succ] at hw hx
        obtain ⟨g, g', gl, j1, j2⟩ := i4 i w' x hw hx
        refine ⟨g, g', gl, fun d a ha => ⟨?_, (j1 d a ha).2⟩, j2⟩
        rw [(j1 d a ha).1, hmro]
        congr 1
        funext l
        rw [List.take_succ_cons]
        exact sees_cons (hinit a ha) _ _

/-- What an execution does, with the tables it leaves. -/
theorem execute_flow (e : Env) (hk : Keeps e) (nodes : Dict Str Nat) (clock : State → Int) (ps : List Str) (s : State)
    (ts : Exec.Times) (hc : AllClosed ts) (hm : ∀ p c, get? p nodes = some c → (s.classes.mro c).isSome)
    {en : Exec.End} {s' : State} {ts' : Exec.Times} {tr : List (Str × Exec.Outcome)}
    (h : execute e nodes clock ps s ts = (en, s', ts', tr)) :
    ∃ hist : List Wrote,
      hist.map (fun w => some w.cls) = tr.map (fun x => get? x.1 nodes) ∧
      s'.classes.size = s.classes.size ∧ s'.classes.bases = s.classes.bases ∧
      (∀ d a, FlowName e.builtins a →
        get? a (s'.classes.own d) = holds (fun d a => get? a (s.classes.own d)) hist d a) ∧
      ∀ i w x, hist[i]? = some w → tr[i]? = some x → ∃ (g g' : Classes) (globals : Dict Str Val),
        (∀ d a, FlowName e.builtins a →
          g.attr? d a = (s.classes.mro d).bind (fun l => sees (fun d a => get? a (s.classes.own d)) (hist.take i) l a) ∧
          g'.attr? d a = g.attr? d a) ∧
        RunSays e (e.resolve g' w.cls) (e.code g w.cls) globals (g.attr? w.cls) x.2 w.vals := by
  obtain ⟨h1, -, A, B, h2, h3, h4, -⟩ := C38_loop (enabledAt nodes) (runAt e nodes) clock
    (fun p s ts => ⟨[], by unfold runAt; cases get? p nodes <;> simp, by intro e he; cases he⟩)
    (fun p s ts => enabled_kept e hk nodes p s ts) ps s ts hc en s' ts' tr h
  refine chain_flow e hk nodes h1 (fun x hx => ?_) hm
  have : x.1 ∈ A.filter (fun p => notOff (enabledAt nodes s p)) := by rw [← h4]; exact List.mem_map_of_mem hx
  have := h3 x.1 (List.mem_filter.1 this).1
  unfold enabledAt at this
  cases hg : get? x.1 nodes with
  | none => rw [hg] at this; exact absurd rfl this
  | some c => rfl

theorem read_det {resolve : Str → Option Str} {lit : Str → Lit} {v u u' : Val} (h : Read resolve lit v u)
    (h' : Read resolve lit v u') : u = u' :=
  Option.some.inj (((read_iff _ _ _ _).2 h).symm.trans ((read_iff _ _ _ _).2 h'))

end Flowing

/-- C116, partial: what nodes see during an execution.  There is a list of what each run wrote such that each node,
when run, was given for every attribute the value of the first class in its resolution order which has one, where a
class has what was last written to it or else what it had at the start; and such that each run wrote exactly the
values which its code made different, nothing if the code ended with an error or an attribute could not be read.
After the execution every node sees what follows from the same list.

Missing: code which deletes attributes of its frame (see `C40_deleted_violation`). -/
theorem C116_flow_partial (e : Env) (hk : Keeps e) (nodes : Dict Str Nat) (clock : State → Int) (ps : List Str) (s : State)
    (ts : Exec.Times) (hc : AllClosed ts) (hm : ∀ p c, get? p nodes = some c → (s.classes.mro c).isSome)
    {en : Exec.End} {s' : State} {ts' : Exec.Times} {tr : List (Str × Exec.Outcome)}
    (h : execute e nodes clock ps s ts = (en, s', ts', tr)) :
    ∃ hist : List Wrote,
      hist.map (fun w => some w.cls) = tr.map (fun x => get? x.1 nodes) ∧
      (∀ d a, FlowName e.builtins a →
        s'.classes.attr? d a = (s.classes.mro d).bind (fun l => sees (fun d a => get? a (s.classes.own d)) hist l a)) ∧
      ∀ i w x, hist[i]? = some w → tr[i]? = some x → ∃ (g g' : Classes) (globals : Dict Str Val),
        (∀ d a, FlowName e.builtins a →
          g.attr? d a = (s.classes.mro d).bind (fun l => sees (fun d a => get? a (s.classes.own d)) (hist.take i) l a) ∧
          g'.attr? d a = g.attr? d a) ∧
        RunSays e (e.resolve g' w.cls) (e.code g w.cls) globals (g.attr? w.cls) x.2 w.vals := by
  obtain ⟨hist, h1, h2, h3, h4, h5⟩ := Flowing.execute_flow e hk nodes clock ps s ts hc hm h
  refine ⟨hist, h1, fun d a ha => ?_, h5⟩
  unfold Classes.attr?
  rw [Flowing.mro_congr h3 h2]
  congr 1
  funext l
  unfold sees
  congr 1
  funext k
  exact h4 k a ha

/-- C116: which nodes are run: of the given ones, up to where the execution stops, those which are enabled at the start.
-/
theorem C116_ran (e : Env) (hk : Keeps e) (nodes : Dict Str Nat) (clock : State → Int) (ps : List Str) (s : State)
    (ts : Exec.Times) (hc : AllClosed ts) {en : Exec.End} {s' : State} {ts' : Exec.Times} {tr : List (Str × Exec.Outcome)}
    (h : execute e nodes clock ps s ts = (en, s', ts', tr)) :
    ∃ A B, ps = A ++ B ∧
      tr.map (fun x => x.1) = A.filter (fun p => notOff ((get? p nodes).map (fun c => s.classes.attr c "_enabled".toList))) ∧
      (en = .done → B = []) := by
  obtain ⟨-, -, A, B, h2, h3, h4, h5⟩ := C38_loop (enabledAt nodes) (runAt e nodes) clock
    (fun p s ts => ⟨[], by unfold runAt; cases get? p nodes <;> simp, by intro e he; cases he⟩)
    (fun p s ts => Flowing.enabled_kept e hk nodes p s ts) ps s ts hc en s' ts' tr h
  refine ⟨A, B, h2, h4, fun he => ?_⟩
  subst he
  rcases h5 with h5 | h5 | ⟨_, _, _, _, _, h5 | h5⟩
  · exact h5.2.1
  · exact absurd h5.1 (by decide)
  · exact absurd h5.1 (by decide)
  · exact absurd h5.1 (by decide)

/-- C116: a node sees the same as at the start if neither it nor any node it takes from was run. -/
theorem C116_untouched (e : Env) (hk : Keeps e) (nodes : Dict Str Nat) (clock : State → Int) (ps : List Str) (s : State)
    (ts : Exec.Times) (hc : AllClosed ts) (hm : ∀ p c, get? p nodes = some c → (s.classes.mro c).isSome)
    {en : Exec.End} {s' : State} {ts' : Exec.Times} {tr : List (Str × Exec.Outcome)}
    (h : execute e nodes clock ps s ts = (en, s', ts', tr)) {d : Nat} {l : List Nat} (hd : s.classes.mro d = some l)
    (hno : ∀ x ∈ tr, ∀ c, get? x.1 nodes = some c → c ∉ l) {a : Str} (ha : FlowName e.builtins a) :
    s'.classes.attr? d a = s.classes.attr? d a := by
  obtain ⟨hist, h1, h2, -⟩ := C116_flow_partial e hk nodes clock ps s ts hc hm h
  rw [h2 d a ha, hd, Option.bind_some]
  unfold Classes.attr?
  rw [hd, Option.bind_some]
  have hw : ∀ w ∈ hist, w.cls ∉ l := by
    intro w hw
    have : some w.cls ∈ tr.map (fun x => get? x.1 nodes) := by rw [← h1]; exact List.mem_map_of_mem (f := fun w => some w.cls) hw
    obtain ⟨x, hx, he⟩ := List.mem_map.1 this
    exact hno x hx w.cls he
  unfold sees
  have : ∀ k ∈ l, lastWritten hist k a = none := by
    intro k hk
    clear h1 h2
    induction hist with
    | nil => rfl
    | cons w hist ih =>
      rw [Flowing.lastWritten_cons, ih (fun w hw' => hw w (List.mem_cons_of_mem _ hw')), if_neg]
      · rfl
      · rintro rfl
        exact hw w List.mem_cons_self hk
  clear hd hno hw
  induction l with
  | nil => rfl
  | cons k l ih =>
    rw [List.findSome?_cons, List.findSome?_cons, ih (fun k hk => this k (List.mem_cons_of_mem _ hk))]
    unfold holds
    rw [this k List.mem_cons_self, Option.none_or]

/-- C116: in a stage without instances, a node sees after an execution what the nearest node in its lineage has, where a
node has what was last written to it while it ran, or else what the strongest of its layers says. -/
theorem C116_composed {layers : List Comp.LayerNodes} (hl : SpecNodes layers)
    (hno : ∀ l ∈ layers, ∀ p n, (p, n) ∈ l → get? "_instance".toList n = some .none) {order : List (Str × Nat)}
    (ho : order.Perm (Inherit.classesOf layers).2) (e : Env) (hk : Keeps e) (clock : State → Int) (ps : List Str) (s : State)
    (hs : Inherit.postProxy (Inherit.classesOf layers).2 order (Inherit.classesOf layers).1 = some s.classes)
    (ts : Exec.Times) (hc : AllClosed ts) {en : Exec.End} {s' : State} {ts' : Exec.Times} {tr : List (Str × Exec.Outcome)}
    (h : execute e (Inherit.classesOf layers).2 clock ps s ts = (en, s', ts', tr)) :
    ∃ hist : List Wrote,
      hist.map (fun w => some w.cls) = tr.map (fun x => get? x.1 (Inherit.classesOf layers).2) ∧
      ∀ ns c a, Names ns → FlowName e.builtins a → get? (render ns) (Inherit.classesOf layers).2 = some c →
        s'.classes.attr? c a = (lineage ns).findSome? (fun q =>
          ((get? (render q) (Inherit.classesOf layers).2).bind (fun d => lastWritten hist d a)).or
            ((stack layers (render q)).findSome? (get? a))) := by
  obtain ⟨hL, hp, hpar, hins, -⟩ := classesOf_ready hl
  obtain ⟨_, hnode, htab, hkeys⟩ := classesOf_spec hl
  obtain ⟨links, l1, l2, l3, l4⟩ := Inherit.postProxy_done hL hp hpar hins ho hs
  have hni := layers_no_instance hl hno
  generalize hn : (Inherit.classesOf layers).2 = nodes at *
  generalize hg : (Inherit.classesOf layers).1 = g0 at *
  have hmro : ∀ p c, get? p nodes = some c → (s.classes.mro c).isSome := by
    intro p c hc
    obtain ⟨l, hll⟩ := l2 p c (mem_of_get? hc)
    rw [(Inherit.Laid.mro_iff l1 (l1.comp p c (mem_of_get? hc)).2.1).2 hll]; rfl
  obtain ⟨hist, h1, h2, h3, h4, -⟩ := Flowing.execute_flow e hk nodes clock ps s ts hc hmro h
  refine ⟨hist, h1, fun ns c a hN ha hcn => ?_⟩
  have hL' : Laid s'.classes nodes g0.bases links := Inherit.Laid.same l1 ⟨h2, h3⟩
  have hinst : ∀ p c, (p, c) ∈ nodes → instSource g0 nodes g0.bases c = none := by
    intro p c hc
    unfold instSource
    rw [show firstTable "_instance".toList (tablesOf g0 g0.bases c) = some .none from hni p c hc]
  have hlinks : ∀ ns c, Names ns → (render ns, c) ∈ nodes → links c = (nearestAbove nodes ns).toList := by
    intro ns c hN hc
    have := l4 ns c hN hc
    rw [hinst _ c hc] at this
    exact this
  obtain ⟨l, hll, hv⟩ := attr_lineage hL' hlinks a (ns.length + 1) ns c (by omega) hN (mem_of_get? hcn)
  unfold Classes.attr?
  rw [(Inherit.Laid.mro_iff hL' (hL'.comp _ c (mem_of_get? hcn)).2.1).2 hll, Option.bind_some, hv]
  have hw : ∀ w ∈ hist, ∃ p, (p, w.cls) ∈ nodes := by
    intro w hw
    have : some w.cls ∈ tr.map (fun x => get? x.1 nodes) := by rw [← h1]; exact List.mem_map_of_mem (f := fun w => some w.cls) hw
    obtain ⟨x, hx, he⟩ := List.mem_map.1 this
    exact ⟨x.1, mem_of_get? he⟩
  have hnone : ∀ d, (∀ p, (p, d) ∉ nodes) → lastWritten hist d a = none := by
    intro d hd
    clear h1 h4
    induction hist with
    | nil => rfl
    | cons w hist ih =>
      rw [Flowing.lastWritten_cons, ih (fun w hw' => hw w (List.mem_cons_of_mem _ hw')), if_neg]
      · rfl
      · rintro rfl
        obtain ⟨p, hp⟩ := hw w List.mem_cons_self
        exact hd p hp
  have hsrc := ha.no_source
  have hres : ∀ x ∈ reservedNames, a ≠ x := fun x hx he => ha.2.1 (he ▸ hx)
  have htouch : ¬ Inherit.Touched a := by
    rintro ⟨x, hx, h | h⟩
    · have : ∀ x ∈ Inherit.OVERLOAD, x ∈ reservedNames := by decide +kernel
      exact hres x (this x hx) h
    · exact hsrc ⟨x, h⟩
  have hown : ∀ d, get? a (s'.classes.own d) = (lastWritten hist d a).or (get? a (g0.own d)) := by
    intro d
    rw [h4 d a ha]
    unfold holds
    simp only
    rw [l3 d a htouch]
  have hzero : get? a (s'.classes.own 0) = none := by
    rw [hown, hnone 0 (fun p hp => by have := (hL.comp p 0 hp).1; omega), hnode, Option.none_or, get?_eq_none]
    intro hm
    have : ∀ x ∈ keys NODE_CLASS, x ∈ reservedNames := by decide +kernel
    exact hres a (this a hm) rfl
  rw [hzero, Option.or_none]
  unfold inherited
  congr 1
  funext q
  cases hq : get? (render q) nodes with
  | none =>
    simp only [hq, (hkeys _).1 hq]
    rfl
  | some d =>
    have hd := mem_of_get? hq
    have hspecs : ∀ sp ∈ g0.bases d, get? a (s'.classes.own sp) = get? a (g0.own sp) := by
      intro sp hsp
      rw [hown, hnone sp (hL.spec _ d hd sp hsp).2.2.2, Option.none_or]
    have ht := (htab _ d hd).2
    have hcons := List.cons.inj ht
    simp only [hq, Option.map_some, Option.bind_some]
    unfold firstTable tablesOf
    rw [List.findSome?_cons, hown, hcons.1, own_other, Option.or_none]
    · have hrest : (List.map s'.classes.own (g0.bases d)).findSome? (get? a) = (stack layers (render q)).findSome? (get? a) := by
        rw [← hcons.2]
        clear ht hcons
        generalize g0.bases d = sp at hspecs ⊢
        induction sp with
        | nil => rfl
        | cons x sp ih =>
          rw [List.map_cons, List.map_cons, List.findSome?_cons, List.findSome?_cons, hspecs x List.mem_cons_self,
            ih (fun x hx => hspecs x (List.mem_cons_of_mem _ hx))]
      rw [hrest]
      cases lastWritten hist d a <;> rfl
    · have : ∀ x ∈ Comp.OVERLOAD, x ∈ reservedNames := by decide +kernel
      exact fun hm => hres a (this a hm) rfl
    · exact fun x _ h => hsrc ⟨x, h⟩
    · exact hres _ (by decide +kernel)
    · exact fun h => hres _ (by decide +kernel) h.symm

namespace Flowing

theorem says_det {e : Env} {resolve : Str → Option Str} {code : Str} {gl gl' : Dict Str Val} {found found' : Str → Option Val}
    {out out' : Exec.Outcome} {w w' : Str → Option Val}
    (hself : ∀ code f f', (∀ a, FlowName e.builtins a → get? a f.self = get? a f'.self) →
      (e.exec code f).2 = (e.exec code f').2 ∧
      ∀ a, FlowName e.builtins a → get? a (e.exec code f).1.self = get? a (e.exec code f').1.self)
    (hf : ∀ a, FlowName e.builtins a → found' a = found a)
    (h : RunSays e resolve code gl found out w) (h' : RunSays e resolve code gl' found' out' w') :
    out' = out ∧ ∀ a, FlowName e.builtins a → w' a = w a := by
  rcases h with ⟨⟨a, v, h1, h2, h3⟩, h4, h5⟩ | ⟨f, h1, h2, h3, h4⟩
  · rcases h' with ⟨-, h4', h5'⟩ | ⟨f', h1', h2', h3', h4'⟩
    · exact ⟨h4'.trans h4.symm, fun a _ => (h5' a).trans (h5 a).symm⟩
    · rcases h2' a h1 with ⟨k1, -⟩ | ⟨v', u, k1, k2, k3⟩
      · rw [hf a h1, h2] at k1; cases k1
      · rw [hf a h1, h2] at k1; cases k1
        exact absurd k3 (h3 u)
  · rcases h' with ⟨⟨a, v, g1, g2, g3⟩, h4', h5'⟩ | ⟨f', h1', h2', h3', h4'⟩
    · rcases h2 a g1 with ⟨k1, -⟩ | ⟨v', u, k1, k2, k3⟩
      · rw [hf a g1, k1] at g2; cases g2
      · rw [hf a g1, k1] at g2; cases g2
        exact absurd k3 (g3 u)
    · have hsame : ∀ a, FlowName e.builtins a → get? a f'.self = get? a f.self := by
        intro a ha
        rcases h2 a ha with ⟨k1, k2⟩ | ⟨v, u, k1, k2, k3⟩
        · rcases h2' a ha with ⟨k1', k2'⟩ | ⟨v', u', k1', k2', k3'⟩
          · rw [k2, k2']
          · rw [hf a ha, k1] at k1'; cases k1'
        · rcases h2' a ha with ⟨k1', k2'⟩ | ⟨v', u', k1', k2', k3'⟩
          · rw [hf a ha, k1] at k1'; cases k1'
          · rw [hf a ha, k1] at k1'; cases k1'
            rw [k2, k2', read_det k3 k3']
      obtain ⟨o1, o2⟩ := hself code f' f hsame
      have ho : out' = out := by rw [h3, h3', o1]
      refine ⟨ho, fun a ha => ?_⟩
      rw [h4 a ha, h4' a ha, ho]
      split
      · rfl
      · unfold changes
        simp only [hsame a ha, o2 a ha]

theorem attr?_congr {g g' : Classes} (hb : g'.bases = g.bases) (hs : g'.size = g.size) {d : Nat} {a : Str}
    (h : ∀ l, g.mro d = some l → ∀ k ∈ l, get? a (g'.own k) = get? a (g.own k)) : g'.attr? d a = g.attr? d a := by
  unfold Classes.attr?
  rw [mro_congr hb hs]
  cases hm : g.mro d with
  | none => rfl
  | some l =>
    rw [Option.bind_some, Option.bind_some]
    replace h := h l hm
    clear hm
    induction l with
    | nil => rfl
    | cons k l ih =>
      rw [List.findSome?_cons, List.findSome?_cons, h k List.mem_cons_self,
        ih (fun k hk => h k (List.mem_cons_of_mem _ hk))]

end Flowing

/-- C116: the order of nodes which do not take from each other does not matter.  If the texts of a node refer to its own
attributes only and the code of a node uses nothing but them, then two nodes neither of which is in the resolution
order of the other end the same way and leave all nodes seeing the same, whichever is run first. -/
theorem C116_commute (e : Env) (hk : Keeps e)
    (htext : ∀ g g' c, (∀ a, FlowName e.builtins a → g.attr? c a = g'.attr? c a) →
      e.resolve g c = e.resolve g' c ∧ e.code g c = e.code g' c)
    (hself : ∀ code f f', (∀ a, FlowName e.builtins a → get? a f.self = get? a f'.self) →
      (e.exec code f).2 = (e.exec code f').2 ∧
      ∀ a, FlowName e.builtins a → get? a (e.exec code f).1.self = get? a (e.exec code f').1.self)
    (s : State) {p q : Str} {c d : Nat} {lc ld : List Nat} (hc : s.classes.mro c = some lc) (hd : s.classes.mro d = some ld)
    (hcd : c ∉ ld) (hdc : d ∉ lc) :
    outcome (runNode e p c (runNode e q d s).2).1 = outcome (runNode e p c s).1 ∧
    outcome (runNode e q d (runNode e p c s).2).1 = outcome (runNode e q d s).1 ∧
    ∀ k a, FlowName e.builtins a →
      (runNode e p c (runNode e q d s).2).2.classes.attr? k a = (runNode e q d (runNode e p c s).2).2.classes.attr? k a := by
  obtain ⟨rc, hrc⟩ := Flowing.mro_head (g := s.classes) (c := c) (by rw [hc]; rfl)
  obtain ⟨rd, hrd⟩ := Flowing.mro_head (g := s.classes) (c := d) (by rw [hd]; rfl)
  have hne : c ≠ d := by
    rintro rfl
    rw [hrc] at hc; cases hc
    exact hdc List.mem_cons_self
  -- a run of one leaves what the other sees
  have keep : ∀ (p : Str) (c d : Nat) (ld : List Nat), s.classes.mro d = some ld → c ∉ ld →
      ∀ a, (runNode e p c s).2.classes.attr? d a = s.classes.attr? d a := by
    intro p c d ld hd hcd a
    obtain ⟨w3, w4, w5, -⟩ := runNode_rest e hk p c s
    refine Flowing.attr?_congr w4 w5 fun l hl k hkl => ?_
    rw [hd] at hl; cases hl
    rw [w3 k (fun h => hcd (h ▸ hkl))]
  -- what a run says is the same before and after a run of the other
  have same : ∀ (p q : Str) (c d : Nat) (lc rc : List Nat), s.classes.mro c = some lc → s.classes.mro c = some (c :: rc) →
      d ∉ lc → c ≠ d →
      outcome (runNode e p c (runNode e q d s).2).1 = outcome (runNode e p c s).1 ∧
      ∃ w : Str → Option Val, (∀ a, FlowName e.builtins a →
        get? a ((runNode e p c s).2.classes.own c) = (w a).or (get? a (s.classes.own c)) ∧
        get? a ((runNode e p c (runNode e q d s).2).2.classes.own c) = (w a).or (get? a (s.classes.own c))) := by
    intro p q c d lc rc hc hrc hdc hne
    obtain ⟨w3, w4, w5, -⟩ := runNode_rest e hk q d s
    have hrc' : (runNode e q d s).2.classes.mro c = some (c :: rc) := by rw [Flowing.mro_congr w4 w5]; exact hrc
    obtain ⟨w, x1, x2⟩ := runNode_says e hk p hrc
    obtain ⟨w', y1, y2⟩ := runNode_says e hk p hrc'
    have hfound : ∀ a, (runNode e q d s).2.classes.attr? c a = s.classes.attr? c a := keep q d c lc hc hdc
    have hcode : e.code (runNode e q d s).2.classes c = e.code s.classes c := (htext _ _ c (fun a _ => hfound a)).2
    have hres : e.resolve (cached e (runNode e q d s).2.classes c) c = e.resolve (cached e s.classes c) c := by
      refine (htext _ _ c (fun a ha => ?_)).1
      rw [attr?_cached _ _ _ ha.ne_cached, attr?_cached _ _ _ ha.ne_cached, hfound]
    rw [hcode, hres] at y1
    obtain ⟨o, ow⟩ := Flowing.says_det hself (fun a _ => hfound a) x1 y1
    refine ⟨o, w, fun a ha => ⟨x2 a ha, ?_⟩⟩
    rw [y2 a ha, ow a ha, w3 c hne]
  obtain ⟨o1, wc, hwc⟩ := same p q c d lc rc hc hrc hdc hne
  obtain ⟨o2, wd, hwd⟩ := same q p d c ld rd hd hrd hcd (Ne.symm hne)
  refine ⟨o1, o2, fun k a ha => ?_⟩
  obtain ⟨c3, c4, c5, -⟩ := runNode_rest e hk p c s
  obtain ⟨d3, d4, d5, -⟩ := runNode_rest e hk q d s
  obtain ⟨cd3, cd4, cd5, -⟩ := runNode_rest e hk q d (runNode e p c s).2
  obtain ⟨dc3, dc4, dc5, -⟩ := runNode_rest e hk p c (runNode e q d s).2
  refine Flowing.attr?_congr (by rw [dc4, d4, cd4, c4]) (by rw [dc5, d5, cd5, c5]) fun l _ x _ => ?_
  by_cases hxc : x = c
  · subst hxc
    rw [(hwc a ha).2, cd3 x hne, (hwc a ha).1]
  · by_cases hxd : x = d
    · subst hxd
      rw [dc3 x hxc, (hwd a ha).1, (hwd a ha).2]
    · rw [dc3 x hxc, d3 x hxd, cd3 x hxd, c3 x hxc]

/-! ### Examples and violations -/

/-- A parent (class 1) with `a = 1` and a child (class 2) without attributes. -/
def exFlowClasses : Classes :=
  { size := 3, bases := fun c => if c = 2 then [1] else if c = 1 then [0] else [],
    own := fun c => if c = 1 then [("a".toList, .num 1)] else [] }

def exFlowNodes : Dict Str Nat := [("/p".toList, 1), ("/p/c".toList, 2)]

/-- Numbers and truth values are equal as in Python. -/
def exFlowEq : Val → Val → Bool
  | .num a, .num b => a == b
  | .num a, .bool b => a == if b then 1 else 0
  | .bool a, .num b => (if a then 1 else 0) == b
  | .bool a, .bool b => a == b
  | .str a, .str b => a == b
  | _, _ => false

/-- The code of the parent sets the attribute `k` of its frame to `v`, the child has no code.  Texts have no tokens;
`5` is the only literal. -/
def exFlowEnv (k : Str) (v : Val) : Env :=
  { builtins := [], eq := exFlowEq, layer := none, resolve := fun _ _ s => some s,
    lit := fun s => if s = ['5'] then .val (.num 5) else .raw,
    code := fun _ c => if c = 1 then "set".toList else [], lines := fun s => [s], asGlobal := false, selfObj := .none,
    exec := fun code f => (if code = "set".toList then ⟨set k v f.self, f.globals⟩ else f, .ok) }

theorem exFlow_keeps (k : Str) (v : Val) : Keeps (exFlowEnv k v) := by
  intro code f a ha
  show a ∈ keys (if code = "set".toList then (⟨set k v f.self, f.globals⟩ : Frame) else f).self
  split
  · rw [mem_keys_set]; exact .inr ha
  · exact ha

/-- What the child sees of an attribute after the parent and itself were run, and what its code was given. -/
def exFlowSeen (k : Str) (v : Val) : Option Val × Option Val :=
  let r := execute (exFlowEnv k v) exFlowNodes (fun _ => 0) ["/p".toList, "/p/c".toList] ⟨exFlowClasses, []⟩ []
  (r.2.1.classes.attr? 2 k, real (exFlowEnv k v) r.2.1.classes 2 k)

/-- The child sees the number its parent made. -/
example : exFlowSeen "a".toList (.num 7) = (some (.num 7), some (.num 7)) := by rfl

/-- C116 is violated by texts: the parent sets its attribute to the text `5`, and the code of the child is given the
number 5, as texts are resolved and evaluated when read. -/
theorem C116_text_violation : exFlowSeen "a".toList (.str ['5']) = (some (.str ['5']), some (.num 5)) := by rfl

/-- C116 is violated by new attributes: what the code adds to its frame is not handed on. -/
theorem C116_new_violation : (exFlowSeen "b".toList (.num 7)).1 = none := by rfl

/-- C116 is violated by values of other types which are equal: the code sets `1` to `True`, the child still sees `1`. -/
theorem C116_equal_violation : exFlowSeen "a".toList (.bool true) = (some (.num 1), some (.num 1)) := by rfl

example : ∃ hist : List Wrote, hist.map (fun w => some w.cls) = [some 1, some 2] ∧
    (some (.num 7) : Option Val) = sees (fun d a => get? a (exFlowClasses.own d)) hist [2, 1, 0] "a".toList := by
  obtain ⟨hist, h1, h2, -⟩ := C116_flow_partial (exFlowEnv "a".toList (.num 7)) (exFlow_keeps _ _) exFlowNodes (fun _ => 0)
    ["/p".toList, "/p/c".toList] ⟨exFlowClasses, []⟩ [] (fun _ h => nomatch h) (by
      intro p c h
      have hm : (p, c) ∈ exFlowNodes := mem_of_get? h
      simp only [exFlowNodes, List.mem_cons, List.not_mem_nil, or_false, Prod.mk.injEq] at hm
      rcases hm with ⟨-, rfl⟩ | ⟨-, rfl⟩ <;> decide +kernel) rfl
  refine ⟨hist, h1, ?_⟩
  have := h2 2 "a".toList ⟨by simp [exFlowEnv], by decide +kernel, by
    rintro ⟨b, hb⟩
    have := congrArg List.length hb
    rw [List.length_append] at this
    have h1 : ("a".toList).length = 1 := rfl
    have h2 : ("__nxt".toList).length = 5 := rfl
    omega⟩
  rw [show exFlowClasses.mro 2 = some [2, 1, 0] by decide +kernel, Option.bind_some] at this
  exact this

/-- The hypotheses of `C116_composed` are met by the layers of the example of C76. -/
example : ∃ s : State, Inherit.postProxy (Inherit.classesOf (exInheritLayers .none)).2 (Inherit.classesOf (exInheritLayers .none)).2
    (Inherit.classesOf (exInheritLayers .none)).1 = some s.classes ∧
    (∀ l ∈ exInheritLayers .none, ∀ p n, (p, n) ∈ l → get? "_instance".toList n = some .none) ∧
    ∀ ps : List Str, ∃ en s' ts' tr, execute (exFlowEnv "m".toList (.num 7)) (Inherit.classesOf (exInheritLayers .none)).2
      (fun _ => 0) ps s [] = (en, s', ts', tr) := by
  have hno : ∀ l ∈ exInheritLayers .none, ∀ p n, (p, n) ∈ l → get? "_instance".toList n = some .none := by
    intro l hl p n hn
    simp only [exInheritLayers, List.mem_cons, List.not_mem_nil, or_false] at hl
    rcases hl with rfl | rfl
    · simp only [List.mem_cons, List.not_mem_nil, or_false, Prod.mk.injEq] at hn
      obtain ⟨-, rfl⟩ := hn
      rfl
    · simp only [List.mem_cons, List.not_mem_nil, or_false, Prod.mk.injEq] at hn
      rcases hn with ⟨-, rfl⟩ | ⟨-, rfl⟩ | ⟨-, rfl⟩ | ⟨-, rfl⟩ <;> rfl
  obtain ⟨g', h, -⟩ := C76_layers (exInheritLayers_ok .none) hno (List.Perm.refl _)
  exact ⟨⟨g', []⟩, h, hno, fun ps => ⟨_, _, _, _, rfl⟩⟩

/-- Two nodes next to each other. -/
def exFlowPair : Classes :=
  { size := 3, bases := fun c => if c = 2 then [0] else if c = 1 then [0] else [],
    own := fun c => if c = 1 then [("a".toList, .num 1)] else if c = 2 then [("a".toList, .num 2)] else [] }

example (k : Nat) (a : Str) (ha : FlowName [] a) :
    let e := exFlowEnv "a".toList (.num 7)
    let s : State := ⟨exFlowPair, []⟩
    (runNode e "/x".toList 1 (runNode e "/y".toList 2 s).2).2.classes.attr? k a =
      (runNode e "/y".toList 2 (runNode e "/x".toList 1 s).2).2.classes.attr? k a := by
  refine (C116_commute (exFlowEnv "a".toList (.num 7)) (exFlow_keeps _ _) (fun _ _ _ _ => ⟨rfl, rfl⟩) ?_ _
    (lc := [1, 0]) (ld := [2, 0]) (by decide +kernel) (by decide +kernel) (by decide) (by decide)).2.2 k a ha
  intro code f f' h
  refine ⟨rfl, fun a ha => ?_⟩
  show get? a (if code = "set".toList then (⟨set _ _ f.self, f.globals⟩ : Frame) else f).self =
    get? a (if code = "set".toList then (⟨set _ _ f'.self, f'.globals⟩ : Frame) else f').self
  split
  · rw [get?_set, get?_set, h a ha]
  · exact h a ha

/-- C116 is violated by code which deletes an attribute: the execution ends with an error at this node, and the nodes
after it are not run, even when the code itself ends well. -/
theorem C116_deleted_violation (e : Env) (nodes : Dict Str Nat) (clock : State → Int) {p : Str} (ps : List Str) {s : State}
    (ts : Exec.Times) (hc : AllClosed ts) {c : Nat} (hp : get? p nodes = some c) (hm : (s.classes.mro c).isSome)
    (hen : s.classes.attr c "_enabled".toList ≠ .bool false) {a : Str} (ha : FlowName e.builtins a)
    (hv : (s.classes.attr? c a).isSome) (hdel : ∀ f, get? a (e.exec (e.code s.classes c) f).1.self = none) :
    ∃ s' ts', execute e nodes clock (p :: ps) s ts = (.error, s', ts', [(p, .error)]) := by
  obtain ⟨rest, hr⟩ := Flowing.mro_head hm
  have hout : outcome (runNode e p c s).1 = .error := by
    unfold runNode
    simp only
    split
    · obtain ⟨f, -, -, f3⟩ := C40_run_partial e.builtins (fun a => (real e s.classes c a).getD .none) e.eq e.layer p
        (e.code s.classes c) (e.lines (e.code s.classes c)) e.asGlobal e.selfObj (e.exec (e.code s.classes c))
        (rtNode s.classes c) s.globals
      obtain ⟨-, r2, -, r4⟩ := f3
      by_cases he : (e.exec (e.code s.classes c) f).2 = .error
      · rw [(r2 he).1]; rfl
      · rw [r4 he ⟨a, (userAttr_iff hr _ _).2 ⟨ha, hv⟩, get?_eq_none.1 (hdel f)⟩]; rfl
    · rfl
  have hrun : ∀ ts, runAt e nodes p s ts = (.error, (runNode e p c s).2, ts) := by
    intro ts
    unfold runAt
    rw [hp]
    simp only [hout]
  obtain ⟨more, d, t1, -, t3⟩ := loop_node (runAt e nodes)
    (fun p s ts => ⟨[], by unfold runAt; cases get? p nodes <;> simp, by intro e he; cases he⟩) clock p s ts hc
  refine ⟨(runNode e p c s).2,
    ts ++ (p, clock s, some (clock (runAt e nodes p s (Exec.enter ts p (clock s))).2.1)) :: more, ?_⟩
  unfold execute
  rw [Exec.execLoop]
  have hlook : enabledAt nodes s p = some (s.classes.attr c "_enabled".toList) := by
    unfold enabledAt
    rw [hp]; rfl
  rw [hlook]
  split
  · rename_i h; exact absurd (Option.some.inj h) hen
  · rename_i h; cases h
  · simp only [t1, t3]
    simp only [hrun]

/-- The code of the example deletes the attribute of the parent. -/
def exFlowDel : Env := { exFlowEnv "a".toList (.num 7) with exec := fun _ f => (⟨f.self.filter (fun x => x.1 ≠ "a".toList), f.globals⟩, .ok) }

example : ∃ s' ts', execute exFlowDel exFlowNodes (fun _ => 0) ["/p".toList, "/p/c".toList] ⟨exFlowClasses, []⟩ [] =
    (.error, s', ts', [("/p".toList, .error)]) :=
  C116_deleted_violation exFlowDel exFlowNodes _ _ [] (fun _ h => nomatch h) (c := 1) rfl (by decide +kernel) (nofun)
    (a := "a".toList) ⟨by simp [exFlowDel, exFlowEnv], by decide +kernel, by
      rintro ⟨b, hb⟩
      have := congrArg List.length hb
      rw [List.length_append] at this
      have h1 : ("a".toList).length = 1 := rfl
      have h2 : ("__nxt".toList).length = 5 := rfl
      omega⟩ (by rfl) (fun f => get?_eq_none.2 (fun h => by
        obtain ⟨x, hx, hxa⟩ := List.mem_map.1 h
        exact (of_decide_eq_true (List.mem_filter.1 hx).2) hxa))

end Nxt.Props
