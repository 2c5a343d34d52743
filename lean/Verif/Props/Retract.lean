import Verif.Lemmas.Retract
import Verif.Props.IncrementSettings
/-!
# Property C112: edits of a composed stage
-/
namespace Nxt.Props
open Dict NodeData Mro Inherit Increment Retract Spec

/-! ### The spec of a layer -/

theorem settled_isComp {layers : List Comp.LayerNodes} {S : St} {specs links : Nat → List Nat}
    (h : Settled layers S specs links) {p : Str} {c : Nat} (hc : (p, c) ∈ S.nodes) :
    (∀ s ∈ specs c, isComp S s = false) ∧ ∀ b ∈ links c, isComp S b = true := by
  have hcomp : ∀ d, isComp S d = true ↔ ∃ q, (q, d) ∈ S.nodes := by
    intro d
    unfold isComp
    rw [List.contains_iff_mem, List.mem_map]
    exact ⟨fun ⟨x, h1, h2⟩ => ⟨x.1, by rw [← h2]; exact h1⟩, fun ⟨q, hq⟩ => ⟨(q, d), hq, rfl⟩⟩
  refine ⟨fun s hs => ?_, fun b hb => (hcomp b).2 (h.laid.link p c hc b hb)⟩
  rw [Bool.eq_false_iff]
  intro e
  obtain ⟨q, hq⟩ := (hcomp s).1 e
  exact (h.laid.spec p c hc s hs).2.2.2 q hq

/-- The layers of the specs of a node differ. -/
theorem settled_layers {layers : List Comp.LayerNodes} {S : St} {specs links : Nat → List Nat}
    (h : Settled layers S specs links) {p : Str} {c : Nat} (hc : (p, c) ∈ S.nodes) {s t : Nat} (hs : s ∈ specs c)
    (ht : t ∈ specs c) (e : S.layer s = S.layer t) : s = t := by
  have h1 : ((indexedStack layers p).map (fun x => (some x.1, x.2))).Pairwise
      (fun a b : Option Nat × Dict Str Val => a.1 ≠ b.1) := by
    rw [List.pairwise_map]
    refine (stackFrom_sorted layers p 0).imp ?_
    intro a b hab e
    have := Option.some.inj e
    omega
  rw [← h.tables p c hc, List.pairwise_map] at h1
  generalize specs c = L at h1 hs ht
  induction L with
  | nil => exact nomatch hs
  | cons x L ih =>
    obtain ⟨h2, h3⟩ := List.pairwise_cons.1 h1
    rcases List.mem_cons.1 hs with rfl | hs' <;> rcases List.mem_cons.1 ht with rfl | ht'
    · rfl
    · exact absurd e (h2 t ht')
    · exact absurd e.symm (h2 s hs')
    · exact ih h3 hs' ht'

theorem settled_at {layers : List Comp.LayerNodes} {S : St} {specs links : Nat → List Nat}
    (h : Settled layers S specs links) {p : Str} {i : Nat} {l : Comp.LayerNodes} {n : Dict Str Val}
    (hl : layers[i]? = some l) (hg : get? p l = some n) :
    ∃ c s, get? p S.nodes = some c ∧ s ∈ specs c ∧ specAt S i c = some s ∧ S.layer s = some i ∧ S.g.own s = n ∧
      ∀ t ∈ specs c, S.layer t = some i → t = s := by
  have hst := stackFrom_mem layers p l n hg 0 i hl
  rw [Nat.zero_add] at hst
  cases hc : get? p S.nodes with
  | none =>
    have := (h.free p).1 hc
    rw [← stackFrom_stack layers p 0] at this
    rw [List.map_eq_nil_iff.1 this] at hst
    exact nomatch hst
  | some c =>
    have hm := mem_of_get? hc
    have hin : (some i, n) ∈ (specs c).map (fun s => (S.layer s, S.g.own s)) := by
      rw [h.tables _ c hm]
      exact List.mem_map.2 ⟨(i, n), hst, rfl⟩
    obtain ⟨s, hs, e⟩ := List.mem_map.1 hin
    have e1 := (Prod.mk.inj e).1
    have e2 := (Prod.mk.inj e).2
    have huniq : ∀ t ∈ specs c, S.layer t = some i → t = s := fun t ht e => settled_layers h hm ht hs (e.trans e1.symm)
    refine ⟨c, s, rfl, hs, ?_, e1, e2, huniq⟩
    obtain ⟨k1, k2⟩ := settled_isComp h hm
    unfold specAt
    rw [(h.laid.comp _ c hm).2.2]
    cases hf : (specs c ++ links c).find? (fun b => !isComp S b && (S.layer b == some i)) with
    | none =>
      rw [List.find?_eq_none] at hf
      have := hf s (List.mem_append_left _ hs)
      rw [k1 s hs, e1] at this
      simp at this
    | some t =>
      have hp := List.find?_some hf
      have ht := List.mem_of_find?_eq_some hf
      simp only [Bool.and_eq_true, Bool.not_eq_true', beq_iff_eq] at hp
      rcases List.mem_append.1 ht with ht | ht
      · rw [huniq t ht hp.2]
      · rw [k2 t ht] at hp; exact nomatch hp.1

/-- The specs of other layers. -/
theorem otherSpecs_eq {layers : List Comp.LayerNodes} {S : St} {specs links : Nat → List Nat}
    (h : Settled layers S specs links) {p : Str} {i c s : Nat} (hc : (p, c) ∈ S.nodes) (hi : S.layer s = some i)
    (hu : ∀ t ∈ specs c, S.layer t = some i → t = s) : otherSpecs S i c = (specs c).filter (· ≠ s) := by
  obtain ⟨k1, k2⟩ := settled_isComp h hc
  unfold otherSpecs
  rw [(h.laid.comp _ c hc).2.2]
  have : (specs c ++ links c).takeWhile (fun b => !isComp S b) = specs c := by
    rw [List.takeWhile_append_of_pos (fun b hb => by rw [k1 b hb]; rfl)]
    cases hl : links c with
    | nil => simp
    | cons b r => rw [List.takeWhile_cons_of_neg (by rw [k2 b (by rw [hl]; simp)]; simp), List.append_nil]
  rw [this]
  refine List.filter_congr fun t ht => ?_
  by_cases e : t = s
  · subst e; rw [hi]; simp
  · have : S.layer t ≠ some i := fun e' => e (hu t ht e')
    simp [e, this]

/-! ### Attributes of a spec -/

theorem settled_retable {layers : List Comp.LayerNodes} {S : St} {specs links : Nat → List Nat}
    (h : Settled layers S specs links) {p : Str} {i : Nat} {l : Comp.LayerNodes} {n n' : Dict Str Val}
    (hl : layers[i]? = some l) (hg : get? p l = some n) {f : Dict Str Val → Option (Dict Str Val)} (hf : f n = some n') :
    ∃ S' s, retable S i p f = some S' ∧ Settled (putSpec layers i p n') S' specs links ∧ S'.nodes = S.nodes ∧
      (∀ q, (q, s) ∉ S.nodes) ∧ S.g.own s = n ∧ S'.g.own s = n' ∧ ∀ d, d ≠ s → S'.g.own d = S.g.own d := by
  obtain ⟨c, s, hc, hs, hat, hi, hown, hu⟩ := settled_at h hl hg
  have hm := mem_of_get? hc
  obtain ⟨s0, s1, s2, s3⟩ := h.laid.spec _ c hm s hs
  have own1 : (setOwn S.g s n').own s = n' := by simp [setOwn]
  have own2 : ∀ d, d ≠ s → (setOwn S.g s n').own d = S.g.own d := fun d hd => by simp [setOwn, hd]
  have hput : indexedStack (putSpec layers i p n') p =
      (indexedStack layers p).map (fun x => if x.1 = i then (x.1, n') else x) := by
    have := stackFrom_put n' layers 0 i l n hl hg
    rw [Nat.zero_add] at this
    exact this
  refine ⟨{ S with g := setOwn S.g s n' }, s, ?_, ?_, rfl, s3, hown, own1, own2⟩
  · unfold retable
    rw [hc, Option.bind_some, hat, Option.bind_some, hown, hf]
    rfl
  · refine ⟨Laid.congr h.laid rfl rfl, h.path, h.link, ?_, ?_, h.addr, ?_, ?_⟩
    · intro q
      by_cases e : q = p
      · subst e
        show get? q S.nodes = none ↔ _
        rw [h.free q, ← stackFrom_stack layers q 0, ← stackFrom_stack (putSpec layers i q n') q 0,
          List.map_eq_nil_iff, List.map_eq_nil_iff]
        change indexedStack layers q = [] ↔ indexedStack (putSpec layers i q n') q = []
        rw [hput, List.map_eq_nil_iff]
      · rw [putSpec_stack_other e]; exact h.free q
    · intro q d hd
      show (specs d).map (fun t => (S.layer t, (setOwn S.g s n').own t)) = _
      by_cases e : d = c
      · subst e
        obtain rfl := h.laid.inj _ _ _ hd hm
        have ht := h.tables _ d hd
        rw [hput, List.map_map]
        have := congrArg (List.map (fun x : Option Nat × Dict Str Val => if x.1 = some i then (x.1, n') else x)) ht
        rw [List.map_map, List.map_map] at this
        refine Eq.trans (List.map_congr_left fun t ht => ?_) (this.trans (List.map_congr_left fun x _ => ?_))
        · simp only [Function.comp]
          by_cases e : t = s
          · subst e; rw [if_pos hi, own1]
          · rw [if_neg (fun e' => e (hu t ht e')), own2 t e]
        · simp only [Function.comp, Option.some.injEq]
          split <;> rfl
      · have hne : q ≠ p := by
          rintro rfl
          have := get?_of_mem h.laid.ok hd
          rw [hc] at this
          exact e (Option.some.inj this).symm
        rw [putSpec_indexed_other hne, ← h.tables q d hd]
        refine List.map_congr_left fun t ht => ?_
        rw [own2]
        rintro rfl
        exact e (h.laid.disjoint _ _ _ _ hd hm t ht hs)
    · intro q d hd b k hk
      show get? k ((setOwn S.g s n').own d) = none
      rw [own2 d (by rintro rfl; exact s3 q hd)]
      exact h.own q d hd b k hk
    · intro b k hk
      show get? k ((setOwn S.g s n').own 0) = none
      rw [own2 0 (by omega)]
      exact h.node b k hk

/-! ### A node taken away -/

theorem dropSpec_stack_other {layers : List Comp.LayerNodes} (hok : ∀ l ∈ layers, Dict.Ok l) {i : Nat} {p q : Str}
    (hne : q ≠ p) : stack (dropSpec layers i p) q = stack layers q := by
  rw [← stackFrom_stack _ _ 0, stackFrom_drop_other hne layers hok, stackFrom_stack]

theorem dropSpec_indexed {layers : List Comp.LayerNodes} (hok : ∀ l ∈ layers, Dict.Ok l) (i : Nat) (p : Str) :
    indexedStack (dropSpec layers i p) p = (indexedStack layers p).filter (fun x => decide (x.1 ≠ i)) := by
  have := stackFrom_drop_same (p := p) layers hok 0 i
  rw [Nat.zero_add] at this
  exact this

/-- The tables of the specs which are left. -/
theorem dropSpec_tables {layers : List Comp.LayerNodes} {S : St} {specs links : Nat → List Nat}
    (h : Settled layers S specs links) (hok : ∀ l ∈ layers, Dict.Ok l) {p : Str} {i c s : Nat} (hc : (p, c) ∈ S.nodes)
    (hi : S.layer s = some i) (hu : ∀ t ∈ specs c, S.layer t = some i → t = s) :
    ((specs c).filter (· ≠ s)).map (fun t => (S.layer t, S.g.own t)) =
      (indexedStack (dropSpec layers i p) p).map (fun x => (some x.1, x.2)) := by
  rw [dropSpec_indexed hok]
  have ht := congrArg (List.filter (fun x : Option Nat × Dict Str Val => decide (x.1 ≠ some i))) (h.tables p c hc)
  rw [List.filter_map, List.filter_map] at ht
  have e1 : (specs c).filter (· ≠ s) =
      (specs c).filter ((fun x : Option Nat × Dict Str Val => decide (x.1 ≠ some i)) ∘ fun t => (S.layer t, S.g.own t)) := by
    refine List.filter_congr fun t htm => ?_
    simp only [Function.comp]
    by_cases e : t = s
    · subst e; simp [hi]
    · have : S.layer t ≠ some i := fun e' => e (hu t htm e')
      simp [e, this]
  have e2 : (indexedStack layers p).filter (fun x => decide (x.1 ≠ i)) =
      (indexedStack layers p).filter ((fun x : Option Nat × Dict Str Val => decide (x.1 ≠ some i)) ∘ fun x => (some x.1, x.2)) := by
    refine List.filter_congr fun x _ => ?_
    simp [Function.comp]
  rw [e1, e2]
  exact ht

/-- The last spec of a node with nothing below it is deleted. -/
theorem settled_gone (is : Str → Str → Bool) {layers : List Comp.LayerNodes} {S : St} {specs links : Nat → List Nat}
    (h : Settled layers S specs links) (hok : ∀ l ∈ layers, Dict.Ok l) {ns : List Str} (hN : Names ns) {i : Nat}
    {l : Comp.LayerNodes} {n : Dict Str Val} (hl : layers[i]? = some l) (hg : get? (render ns) l = some n)
    (honly : ∀ j l', j ≠ i → layers[j]? = some l' → get? (render ns) l' = none)
    (hleaf : ∀ m ms, Names (ns ++ m :: ms) → stack layers (render (ns ++ m :: ms)) = []) :
    ∃ S', remove is S i (render ns) = some S' ∧ Settled (dropSpec layers i (render ns)) S' specs links ∧
      S'.nodes = Dict.erase (render ns) S.nodes ∧
      ∀ q d, (q, d) ∈ S'.nodes → (q, d) ∈ S.nodes ∧ S'.g.own d = S.g.own d := by
  obtain ⟨c, s, hc, hs, hat, hi, hown, hu⟩ := settled_at h hl hg
  have hm := mem_of_get? hc
  have hcpos := (h.laid.comp _ c hm).1
  have hleft : (specs c).filter (· ≠ s) = [] := by
    rw [List.filter_eq_nil_iff]
    intro t ht
    simp only [ne_eq, decide_eq_true_eq, Classical.not_not]
    obtain ⟨j, hj, hjm⟩ := settled_spec h hm ht
    obtain ⟨-, l', h1, h2⟩ := stackFrom_ge layers (render ns) 0 _ hjm
    rw [Nat.sub_zero] at h1
    by_cases e : j = i
    · subst e; exact hu t ht hj
    · rw [honly j l' e h1] at h2; cases h2
  have hoth : otherSpecs S i c = [] := by rw [otherSpecs_eq h hm hi hu]; exact hleft
  have hlinks : ∀ q d, (q, d) ∈ S.nodes → c ∉ links d := by
    intro q d hd hcl
    obtain ⟨ms, hM, rfl⟩ := h.path q d hd
    rw [h.link ms d hM hd] at hcl
    cases hnb : nearestAbove S.nodes ms with
    | none => rw [hnb] at hcl; exact nomatch hcl
    | some b =>
      rw [hnb] at hcl
      obtain rfl : c = b := by simpa using hcl
      obtain ⟨q, m, t, rfl, hq⟩ := nearestAbove_prefix hnb
      have hNq : Names q := fun x hx => hM x (List.mem_append_left _ hx)
      obtain rfl := Path.render_inj hNq hN (h.laid.inj _ _ _ (mem_of_get? hq) hm)
      have := (h.free _).2 (hleaf m t hM)
      rw [get?_of_mem h.laid.ok hd] at this
      cases this
  have hany : (List.range S.g.size).any (fun d => (S.g.bases d).contains c) = false := by
    rw [List.any_eq_false]
    intro d hd
    rw [List.contains_iff_mem]
    intro hb
    by_cases h0 : d = 0
    · subst h0; rw [h.laid.root] at hb; exact nomatch hb
    · by_cases hn : ∃ q, (q, d) ∈ S.nodes
      · obtain ⟨q, hq⟩ := hn
        rw [(h.laid.comp q d hq).2.2] at hb
        rcases List.mem_append.1 hb with hb | hb
        · exact (h.laid.spec q d hq c hb).2.2.2 _ hm
        · exact hlinks q d hq hb
      · rw [h.laid.others d (List.mem_range.1 hd) h0 (fun q hq => hn ⟨q, hq⟩), List.mem_singleton] at hb
        omega
  have hL := laid_erase h.laid hm hlinks (fun d => if d = c then [] else S.g.own d)
  have hsub : ∀ q d, (q, d) ∈ Dict.erase (render ns) S.nodes → (q, d) ∈ S.nodes ∧ q ≠ render ns ∧ d ≠ c := by
    intro q d hd
    have hd' := (erase_sublist S.nodes (render ns)).subset hd
    have hne : q ≠ render ns := by
      rintro rfl
      have := get?_of_mem (ok_erase h.laid.ok _) hd
      rw [get?_erase h.laid.ok, if_pos rfl] at this
      cases this
    refine ⟨hd', hne, ?_⟩
    rintro rfl
    exact hne (h.laid.inj _ _ _ hd' hm)
  refine ⟨takeAway S (render ns) c, ?_, ?_, rfl, ?_⟩
  · unfold remove
    rw [hc, Option.bind_some, hat, Option.bind_some, if_pos hoth]
  · unfold takeAway
    rw [hany]
    refine ⟨hL, fun q d hd => h.path q d (hsub q d hd).1, ?_, ?_, ?_, ?_, ?_, ?_⟩
    · intro ms d hM hd
      rw [nearestAbove_erase h.laid.ok hN hM]
      · exact h.link ms d hM (hsub _ d hd).1
      · rintro ⟨m, t, rfl⟩
        have := (h.free _).2 (hleaf m t hM)
        rw [get?_of_mem h.laid.ok (hsub _ d hd).1] at this
        cases this
    · intro q
      show get? q (Dict.erase (render ns) S.nodes) = none ↔ _
      rw [get?_erase h.laid.ok]
      by_cases e : q = render ns
      · subst e
        rw [if_pos rfl, ← stackFrom_stack _ _ 0]
        change _ ↔ (indexedStack (dropSpec layers i (render ns)) (render ns)).map Prod.snd = []
        have := dropSpec_tables h hok hm hi hu
        rw [hleft] at this
        rw [List.map_eq_nil_iff.1 this.symm]
        simp
      · rw [if_neg e, dropSpec_stack_other hok e]; exact h.free q
    · intro q d hd
      obtain ⟨h1, h2, h3⟩ := hsub q d hd
      have e : indexedStack (dropSpec layers i (render ns)) q = indexedStack layers q := stackFrom_drop_other h2 layers hok 0 i
      rw [e, ← h.tables q d h1]
      refine List.map_congr_left fun t ht => ?_
      show (S.layer t, if t = c then [] else S.g.own t) = _
      rw [if_neg]
      rintro rfl
      exact (h.laid.spec q d h1 t ht).2.2.2 _ hm
    · intro ms d hM hd
      exact h.addr ms d hM (hsub _ d hd).1
    · intro q d hd b k hk
      obtain ⟨h1, h2, h3⟩ := hsub q d hd
      show get? k (if d = c then [] else S.g.own d) = none
      rw [if_neg h3]; exact h.own q d h1 b k hk
    · intro b k hk
      show get? k (if 0 = c then [] else S.g.own 0) = none
      rw [if_neg (by omega)]; exact h.node b k hk
  · intro q d hd
    obtain ⟨h1, h2, h3⟩ := hsub q d hd
    refine ⟨h1, ?_⟩
    unfold takeAway
    rw [hany]
    show (if d = c then [] else S.g.own d) = _
    rw [if_neg h3]

/-- A spec of a node which other layers have too is deleted. -/
theorem settled_less (is : Str → Str → Bool) {layers : List Comp.LayerNodes} {S : St} {specs links : Nat → List Nat}
    (h : Settled layers S specs links) (hok : ∀ l ∈ layers, Dict.Ok l) {ns : List Str} {i : Nat}
    {l : Comp.LayerNodes} {n : Dict Str Val} (hl : layers[i]? = some l) (hg : get? (render ns) l = some n)
    {j : Nat} {l' : Comp.LayerNodes} (hj : j ≠ i) (hl' : layers[j]? = some l') (hg' : (get? (render ns) l').isSome) :
    ∃ S' c s, remove is S i (render ns) = some S' ∧ get? (render ns) S.nodes = some c ∧ s ∈ specs c ∧
      Settled (dropSpec layers i (render ns)) S' (fun d => if d = c then (specs c).filter (· ≠ s) else specs d) links ∧
      S'.nodes = S.nodes ∧ (∀ d, d ≠ c → S'.g.own d = S.g.own d) ∧
      ∀ a ∈ opinionAttrs, get? a (S'.g.own c) =
        some ((givenBy (env is S c) a ((specs c).filter (· ≠ s) ++ links c)).getD (noOpinion a)) := by
  obtain ⟨c, s, hc, hs, hat, hi, hown, hu⟩ := settled_at h hl hg
  have hm := mem_of_get? hc
  have hcpos := (h.laid.comp _ c hm).1
  obtain ⟨n2, hn2⟩ := Option.isSome_iff_exists.1 hg'
  obtain ⟨c', t, hc', ht, -, hti, -, -⟩ := settled_at h hl' hn2
  rw [hc] at hc'
  obtain rfl := Option.some.inj hc'
  have hts : t ≠ s := by
    rintro rfl
    rw [hi] at hti
    exact hj (Option.some.inj hti).symm
  have htm : t ∈ (specs c).filter (· ≠ s) := List.mem_filter.2 ⟨ht, decide_eq_true hts⟩
  have hne : (specs c).filter (· ≠ s) ≠ [] := List.ne_nil_of_mem htm
  have hoth : otherSpecs S i c ≠ [] := by rw [otherSpecs_eq h hm hi hu]; exact hne
  have hlf : (links c).filter (· ≠ s) = links c := by
    refine List.filter_eq_self.2 fun b hb => decide_eq_true ?_
    rintro rfl
    obtain ⟨q, hq⟩ := h.laid.link _ c hm b hb
    exact (h.laid.spec _ c hm b hs).2.2.2 q hq
  have hbf : (S.g.bases c).filter (· ≠ s) = (specs c).filter (· ≠ s) ++ links c := by
    rw [(h.laid.comp _ c hm).2.2, List.filter_append, hlf]
  have hL := laid_less h.laid hm List.filter_sublist hne
  have hset : S.g.setBases c ((specs c).filter (· ≠ s) ++ links c) =
      some (withBases S.g c ((specs c).filter (· ≠ s) ++ links c)) := by
    refine setBases_eq.2 ⟨rfl, Laid.all_lin hL fun p' d hd => ?_⟩
    obtain ⟨ms, hM, rfl⟩ := h.path p' d hd
    obtain ⟨l, hl, -⟩ := Laid.lin_parents hL (fun ms d hM hd => .inr (h.link ms d hM hd)) (ms.length + 1) ms d (by omega) hM hd
    exact ⟨l, hl⟩
  generalize hord : Comp.childOrder [(A_CHILD_ORDER, S.g.attr c A_CHILD_ORDER)] = order
  obtain ⟨v1, v2⟩ := C99_values (env is S c) false s order ⟨S.g.own c, S.g.bases c⟩
  have v3 : ∀ k, k ∉ opinionAttrs → k ≠ "_child_order".toList →
      get? k (Targeted.removeSpec (env is S c) false s order ⟨S.g.own c, S.g.bases c⟩).own = get? k (S.g.own c) := by
    intro k hk hk'
    unfold Targeted.removeSpec
    simp only
    rw [C97_others _ _ _ _ k (.inl hk)]
    dsimp only
    split
    · rfl
    · rw [get?_set, if_neg (show k ≠ A_CHILD_ORDER from hk')]
  generalize hnn : Targeted.removeSpec (env is S c) false s order ⟨S.g.own c, S.g.bases c⟩ = nn at v1 v2 v3
  simp only [hbf] at v1 v2
  generalize hg2 : withBases S.g c ((specs c).filter (· ≠ s) ++ links c) = g2 at hL hset
  have g2own : g2.own = S.g.own := by rw [← hg2]; rfl
  have own1 : (setOwn g2 c nn.own).own c = nn.own := by simp [setOwn]
  have own2 : ∀ d, d ≠ c → (setOwn g2 c nn.own).own d = S.g.own d := fun d hd => by simp [setOwn, hd, g2own]
  have htab := dropSpec_tables h hok hm hi hu
  refine ⟨{ S with g := setOwn g2 c nn.own }, c, s, ?_, hc, hs, ?_, rfl, own2, ?_⟩
  · unfold remove
    rw [hc, Option.bind_some, hat, Option.bind_some, if_neg hoth]
    unfold withoutSpec
    simp only [hord, hnn]
    rw [v1, hset]
    rfl
  · refine ⟨Laid.congr hL rfl rfl, h.path, h.link, ?_, ?_, ?_, ?_, ?_⟩
    · intro q
      show get? q S.nodes = none ↔ _
      by_cases e : q = render ns
      · subst e
        rw [hc, ← stackFrom_stack _ _ 0]
        change _ ↔ (indexedStack (dropSpec layers i (render ns)) (render ns)).map Prod.snd = []
        simp only [reduceCtorEq, false_iff]
        intro e
        rw [List.map_eq_nil_iff.1 e, List.map_nil] at htab
        exact hne (List.map_eq_nil_iff.1 htab)
      · rw [dropSpec_stack_other hok e]; exact h.free q
    · intro q d hd
      show List.map (fun t => (S.layer t, (setOwn g2 c nn.own).own t)) (if d = c then _ else _) = _
      have hspec : ∀ u ∈ specs d, u ≠ c := fun u hud e => (h.laid.spec q d hd u hud).2.2.2 (render ns) (e ▸ hm)
      by_cases e : d = c
      · subst e
        obtain rfl := h.laid.inj _ _ _ hd hm
        rw [if_pos rfl, ← htab]
        refine List.map_congr_left fun t ht => ?_
        rw [own2 t (hspec t (List.mem_filter.1 ht).1)]
      · have hqn : q ≠ render ns := by
          rintro rfl
          have := get?_of_mem h.laid.ok hd
          rw [hc] at this
          exact e (Option.some.inj this).symm
        have e' : indexedStack (dropSpec layers i (render ns)) q = indexedStack layers q := stackFrom_drop_other hqn layers hok 0 i
        rw [if_neg e, e', ← h.tables q d hd]
        refine List.map_congr_left fun t ht => ?_
        rw [own2 t (hspec t ht)]
    · intro ms d hM hd e he
      refine h.addr ms d hM hd e ?_
      rcases List.mem_cons.1 he with rfl | he
      · exact List.mem_cons_self
      · refine List.mem_cons_of_mem _ ?_
        split at he
        · rename_i e'; subst e'; exact (List.mem_filter.1 he).1
        · exact he
    · intro q d hd b k hk
      show get? k ((setOwn g2 c nn.own).own d) = none
      by_cases e : d = c
      · subst e
        rw [own1, v3 k (opinion_internal hk) (child_order_internal hk)]
        exact h.own q d hd b k hk
      · rw [own2 d e]; exact h.own q d hd b k hk
    · intro b k hk
      show get? k ((setOwn g2 c nn.own).own 0) = none
      rw [own2 0 (by omega)]; exact h.node b k hk
  · intro a ha
    show get? a ((setOwn g2 c nn.own).own c) = _
    rw [own1]
    exact v2 a ha (fun h => nomatch h)

/-! ### One edit -/

theorem specNodes_retable {layers : List Comp.LayerNodes} (h : SpecNodes layers)
    (hno : ∀ l ∈ layers, ∀ p n, (p, n) ∈ l → get? "_instance".toList n = some .none) {ns : List Str} (hN : Names ns) {i : Nat}
    {l : Comp.LayerNodes} {n n' : Dict Str Val} (hl : layers[i]? = some l) (hg : get? (render ns) l = some n)
    (hk : ∀ k ∈ internalNames, get? k n' = get? k n) :
    SpecNodes (putSpec layers i (render ns) n') ∧
      ∀ l ∈ putSpec layers i (render ns) n', ∀ p n, (p, n) ∈ l → get? "_instance".toList n = some .none := by
  have hlm := List.mem_of_getElem? hl
  have hnm := mem_of_get? hg
  refine ⟨⟨?_, ?_, ?_, ?_⟩, ?_⟩
  · intro m hm
    rcases mem_putSpec hm with hm | ⟨x, h1, rfl⟩
    · exact h.ok m hm
    · exact ok_set (h.ok x h1) _ _
  · intro m hm p x hx
    rcases mem_node_putSpec h.ok hm hx with ⟨rfl, -⟩ | ⟨l', h1, h2⟩
    · exact ⟨ns, hN, rfl⟩
    · exact h.path l' h1 p x h2
  · intro m hm ms x hM hx
    rcases mem_node_putSpec h.ok hm hx with ⟨e, rfl⟩ | ⟨l', h1, h2⟩
    · rw [Path.render_inj hM hN e]
      exact (hk _ (by decide +kernel)).trans (h.parent l hlm ns n hN hnm)
    · exact h.parent l' h1 ms x hM h2
  · intro m hm p x hx a ha
    rcases mem_node_putSpec h.ok hm hx with ⟨-, rfl⟩ | ⟨l', h1, h2⟩
    · rw [hk a ((by decide +kernel : ∀ y ∈ ["_instance", "_enabled", "_comment", "_code"].map String.toList, y ∈ internalNames) a ha)]
      exact h.keys l hlm _ n hnm a ha
    · exact h.keys l' h1 p x h2 a ha
  · intro m hm p x hx
    rcases mem_node_putSpec h.ok hm hx with ⟨-, rfl⟩ | ⟨l', h1, h2⟩
    · exact (hk _ (by decide +kernel)).trans (hno l hlm _ n hnm)
    · exact hno l' h1 p x h2

theorem specNodes_drop {layers : List Comp.LayerNodes} (h : SpecNodes layers)
    (hno : ∀ l ∈ layers, ∀ p n, (p, n) ∈ l → get? "_instance".toList n = some .none) (i : Nat) (p : Str) :
    SpecNodes (dropSpec layers i p) ∧
      ∀ l ∈ dropSpec layers i p, ∀ q n, (q, n) ∈ l → get? "_instance".toList n = some .none := by
  have hmem : ∀ l ∈ dropSpec layers i p, ∃ l' ∈ layers, ∀ x ∈ l, x ∈ l' := by
    intro l hl
    rcases mem_dropSpec hl with hl | ⟨m, h1, rfl⟩
    · exact ⟨l, hl, fun _ h => h⟩
    · exact ⟨m, h1, fun x hx => (erase_sublist m p).subset hx⟩
  refine ⟨⟨?_, ?_, ?_, ?_⟩, ?_⟩
  · intro l hl
    rcases mem_dropSpec hl with hl | ⟨m, h1, rfl⟩
    · exact h.ok l hl
    · exact ok_erase (h.ok m h1) p
  · intro l hl q n hn
    obtain ⟨l', h1, h2⟩ := hmem l hl
    exact h.path l' h1 q n (h2 _ hn)
  · intro l hl ms n hM hn
    obtain ⟨l', h1, h2⟩ := hmem l hl
    exact h.parent l' h1 ms n hM (h2 _ hn)
  · intro l hl q n hn
    obtain ⟨l', h1, h2⟩ := hmem l hl
    exact h.keys l' h1 q n (h2 _ hn)
  · intro l hl q n hn
    obtain ⟨l', h1, h2⟩ := hmem l hl
    exact hno l' h1 q n (h2 _ hn)

theorem settled_edit (is : Str → Str → Bool) {layers layers' : List Comp.LayerNodes} {S : St} {specs links : Nat → List Nat}
    (h : Settled layers S specs links) (hs : SpecNodes layers)
    (hno : ∀ l ∈ layers, ∀ p n, (p, n) ∈ l → get? "_instance".toList n = some .none) {e : Edit} (he : Edited layers e layers') :
    (∃ S' specs' links', edit is S e = some S' ∧ Settled layers' S' specs' links') ∧ SpecNodes layers' ∧
      ∀ l ∈ layers', ∀ p n, (p, n) ∈ l → get? "_instance".toList n = some .none := by
  cases he with
  | add ha =>
    refine ⟨settled_add is h ha, specNodes_put hs ha, fun l hl p n hn => ?_⟩
    rcases mem_node_putSpec hs.ok hl hn with ⟨-, rfl⟩ | ⟨l', h1, h2⟩
    · exact ha.table.inst
    · exact hno l' h1 p n h2
  | retable hN hl hg hf hk =>
    obtain ⟨S', s, h1, h2, -⟩ := settled_retable h hl hg hf
    exact ⟨⟨S', _, _, h1, h2⟩, specNodes_retable hs hno hN hl hg hk⟩
  | @remove ns i l n hN hl hg hor =>
    refine ⟨?_, specNodes_drop hs hno _ _⟩
    by_cases hx : ∃ j l', j ≠ i ∧ layers[j]? = some l' ∧ (get? (render ns) l').isSome
    · obtain ⟨j, l', h1, h2, h3⟩ := hx
      obtain ⟨S', c, s, q1, -, -, q4, -⟩ := settled_less is h hs.ok hl hg h1 h2 h3
      exact ⟨S', _, _, q1, q4⟩
    · obtain ⟨S', q1, q2, -⟩ := settled_gone is h hs.ok hN hl hg (fun j l' hj hl' => by
        cases hg' : get? (render ns) l' with
        | none => rfl
        | some x => exact absurd ⟨j, l', hj, hl', by rw [hg']; rfl⟩ hx) (hor.resolve_left hx)
      exact ⟨S', _, _, q1, q2⟩

theorem settled_edits (is : Str → Str → Bool) {layers layers' : List Comp.LayerNodes} {es : List Edit}
    (hh : History layers es layers') : ∀ {S : St} {specs links : Nat → List Nat}, Settled layers S specs links →
      SpecNodes layers → (∀ l ∈ layers, ∀ p n, (p, n) ∈ l → get? "_instance".toList n = some .none) →
      (∃ S' specs' links', edits is S es = some S' ∧ Settled layers' S' specs' links') ∧ SpecNodes layers' ∧
        ∀ l ∈ layers', ∀ p n, (p, n) ∈ l → get? "_instance".toList n = some .none := by
  induction hh with
  | done => intro S specs links h hs hno; exact ⟨⟨S, specs, links, rfl, h⟩, hs, hno⟩
  | more he _ ih =>
    intro S specs links h hs hno
    obtain ⟨⟨S1, specs1, links1, h1, h2⟩, hs1, hno1⟩ := settled_edit is h hs hno he
    obtain ⟨⟨S', specs', links', h3, h4⟩, hs', hno'⟩ := ih h2 hs1 hno1
    refine ⟨⟨S', specs', links', ?_, h4⟩, hs', hno'⟩
    unfold edits at h3 ⊢
    rw [List.foldlM_cons, h1]
    exact h3

/-! ## C112 -/

/-- C112: after any history of specs added, changed and deleted, a composed stage without instances has the attributes of
the user which the layers as they are now give, and a composite node exactly for the paths in some layer.  `_partial`: a
node which goes away needs to have nothing below it (`Edited`), and the limits of C111 for specs added. -/
theorem C112_history_partial (is : Str → Str → Bool) {layers layers' : List Comp.LayerNodes} {es : List Edit}
    (hs : SpecNodes layers) (hno : ∀ l ∈ layers, ∀ p n, (p, n) ∈ l → get? "_instance".toList n = some .none)
    {order : List (Str × Nat)} (ho : order.Perm (classesOf layers).2) (h : History layers es layers') :
    ∃ g' layer addr links, postProxy (classesOf layers).2 order (classesOf layers).1 = some g' ∧
      Settled layers ⟨g', (classesOf layers).2, layer, addr⟩ (classesOf layers).1.bases links ∧
      ∃ S', edits is ⟨g', (classesOf layers).2, layer, addr⟩ es = some S' ∧
        (∀ p, (get? p S'.nodes).isSome ↔ stack layers' p ≠ []) ∧
        ∀ ns c k b, Names ns → UserName b k → get? (render ns) S'.nodes = some c →
          S'.g.attr? c k = layered layers' ns k := by
  obtain ⟨g', layer, addr, links, h1, h2⟩ := composed_settled hs hno ho
  obtain ⟨⟨S', specs', links', h3, h4⟩, -⟩ := settled_edits is h h2 hs hno
  refine ⟨g', layer, addr, links, h1, h2, S', h3, fun p => ?_, fun ns c k b hN hk hc => settled_value h4 hN hc hk⟩
  rw [← Option.ne_none_iff_isSome, Ne, h4.free]

/-- C112: the same nodes and values as composing the layers anew, in any order of the nodes. -/
theorem C112_recomposed_partial (is : Str → Str → Bool) {layers layers' : List Comp.LayerNodes} {es : List Edit}
    (hs : SpecNodes layers) (hno : ∀ l ∈ layers, ∀ p n, (p, n) ∈ l → get? "_instance".toList n = some .none)
    (h : History layers es layers') {S : St} {specs links : Nat → List Nat} (hS : Settled layers S specs links)
    {order : List (Str × Nat)} (ho : order.Perm (classesOf layers').2) :
    ∃ S' g', edits is S es = some S' ∧ postProxy (classesOf layers').2 order (classesOf layers').1 = some g' ∧
      ∀ ns, Names ns →
        ((get? (render ns) S'.nodes).isSome ↔ (get? (render ns) (classesOf layers').2).isSome) ∧
        ∀ c d k b, UserName b k → get? (render ns) S'.nodes = some c → get? (render ns) (classesOf layers').2 = some d →
          S'.g.attr? c k = g'.attr? d k := by
  obtain ⟨⟨S', specs', links', h3, h4⟩, hs', hno'⟩ := settled_edits is h hS hs hno
  obtain ⟨g', h5, h6⟩ := C76_layers hs' hno' ho
  obtain ⟨-, -, -, hkeys⟩ := classesOf_spec hs'
  refine ⟨S', g', h3, h5, fun ns hN => ⟨?_, fun c d k b hk hc hd => ?_⟩⟩
  · rw [← Option.ne_none_iff_isSome, ← Option.ne_none_iff_isSome, Ne, Ne, h4.free, hkeys]
  · rw [settled_value h4 hN hc hk, h6 ns d k b hN hk hd]

/-- C112, where it fails: the child of a node which goes away keeps the attributes of that node, although no layer gives
them any more. -/
theorem C112_orphan_violation (is : Str → Str → Bool) {layers : List Comp.LayerNodes} {S : St} {specs links : Nat → List Nat}
    (h : Settled layers S specs links) (hok : ∀ l ∈ layers, Dict.Ok l) {ns : List Str} {m : Str} (hM : Names (ns ++ [m])) {i : Nat}
    {l : Comp.LayerNodes} {n : Dict Str Val} (hl : layers[i]? = some l) (hg : get? (render ns) l = some n)
    (honly : ∀ j l', j ≠ i → layers[j]? = some l' → get? (render ns) l' = none)
    {d : Nat} (hd : get? (render (ns ++ [m])) S.nodes = some d) {b : List Str} {k : Str} (hk : UserName b k)
    {v : Val} (hv : get? k n = some v) (hchild : (stack layers (render (ns ++ [m]))).findSome? (get? k) = none)
    (hold : layered (dropSpec layers i (render ns)) ns k ≠ some v) :
    ∃ S', remove is S i (render ns) = some S' ∧ get? (render ns) S'.nodes = none ∧
      get? (render (ns ++ [m])) S'.nodes = some d ∧ S'.g.attr? d k = some v ∧
      layered (dropSpec layers i (render ns)) (ns ++ [m]) k ≠ some v := by
  have hN : Names ns := (Path.names_append.1 hM).1
  obtain ⟨c, s, hc, hs, hat, hi, hown, hu⟩ := settled_at h hl hg
  have hm := mem_of_get? hc
  have hdm := mem_of_get? hd
  have hne : render (ns ++ [m]) ≠ render ns := fun e => by
    have := congrArg List.length (Path.render_inj hM hN e)
    simp at this
  have hall : ∀ t ∈ specs c, t = s := by
    intro t ht
    obtain ⟨j, hj, hjm⟩ := settled_spec h hm ht
    obtain ⟨-, l', h1, h2⟩ := stackFrom_ge layers (render ns) 0 _ hjm
    rw [Nat.sub_zero] at h1
    by_cases e : j = i
    · subst e; exact hu t ht hj
    · rw [honly j l' e h1] at h2; cases h2
  have hoth : otherSpecs S i c = [] := by
    rw [otherSpecs_eq h hm hi hu, List.filter_eq_nil_iff]
    intro t ht
    simp [hall t ht]
  have hcd : c ∈ S.g.bases d := by
    rw [(h.laid.comp _ d hdm).2.2, h.link _ d hM hdm, nearestAbove_snoc]
    obtain ⟨r, hr⟩ := lineage_head ns
    rw [hr, List.findSome?_cons, hc]
    simp
  have hany : (List.range S.g.size).any (fun d => (S.g.bases d).contains c) = true :=
    List.any_eq_true.2 ⟨d, List.mem_range.2 (h.laid.comp _ d hdm).2.1, List.contains_iff_mem.2 hcd⟩
  have hstack : stack layers (render ns) = [n] := by
    rw [← specs_stack h hm]
    have : specs c = [s] := by
      have hnd := h.laid.nodup _ c hm
      generalize specs c = L at hs hall hnd
      cases L with
      | nil => exact nomatch hs
      | cons x L =>
        cases L with
        | nil => rw [hall x (by simp)]
        | cons y L =>
          rw [hall x (by simp), hall y (by simp)] at hnd
          simp at hnd
    rw [this, List.map_cons, List.map_nil, hown]
  refine ⟨takeAway S (render ns) c, ?_, ?_, ?_, ?_, ?_⟩
  · unfold remove
    rw [hc, Option.bind_some, hat, Option.bind_some, if_pos hoth]
  · show get? _ (Dict.erase _ _) = none
    rw [get?_erase h.laid.ok, if_pos rfl]
  · show get? _ (Dict.erase _ _) = _
    rw [get?_erase h.laid.ok, if_neg hne]; exact hd
  · have e : (takeAway S (render ns) c).g = S.g := by
      unfold takeAway
      simp only [hany, if_true]
    rw [e, settled_value h hM hd hk]
    obtain ⟨r, hr⟩ := lineage_head ns
    unfold layered
    rw [lineage_snoc, List.findSome?_cons, hchild, hr, List.findSome?_cons, hstack]
    simp [hv]
  · have : layered (dropSpec layers i (render ns)) (ns ++ [m]) k = layered (dropSpec layers i (render ns)) ns k := by
      unfold layered
      rw [lineage_snoc, List.findSome?_cons, dropSpec_stack_other hok hne, hchild]
    rw [this]; exact hold

end Nxt.Props
