import Verif.Spec.Live
/-!
# Specification of chains of references while nodes are run

What a text reads as, written down without the resolver: by the values the attributes of the nodes have.
-/
namespace Nxt.Spec
open Dict

/-- The reference `r` in a text of the node `c` names the attribute `a` of the node at the path `q`. -/
def NamesAttr (nodes : Dict Str Nat) (c : Nat) (r q a : Str) : Prop :=
  ∃ p, (p, c) ∈ nodes ∧
    ((∃ p', SplitRef r p' a ∧ Path.expandRelative (some p') p = some q) ∨
      ((∀ p' a', ¬ SplitRef r p' a') ∧ a = r ∧ Path.expandRelative (some p) p = some q))

/-- The values whose `str` stands for them. -/
def StrOnly (v : Val) : Prop := v ≠ .none ∧ ∀ t, v ≠ .str t

mutual
/-- The text `t` of the node `c` reads as `out`; `now` are the values of the attributes of all nodes. -/
inductive ReadsAs (x : Live.Around) (builtins : List Str) (nodes : Dict Str Nat) (now : Nat → Str → Option Val) :
    Nat → Str → Str → Prop
  | text {c : Nat} {t out : Str} {toks : List Str} {m : Str → Str} : Parse t toks true → NotNested toks →
      (∀ a b, t ≠ a ++ ['$', '$', '{'] ++ b) → (∀ tok ∈ toks, Inert (m tok)) →
      (∀ content, ['$', '{'] ++ content ++ ['}'] ∈ toks → ∀ p ∈ x.plugins, p.detect content = false) →
      (∀ content, ['$', '{'] ++ content ++ ['}'] ∈ toks →
        TokenAs x builtins nodes now c content (m (['$', '{'] ++ content ++ ['}']))) →
      Renders m t out → ReadsAs x builtins nodes now c t out
/-- The token with the content `content` in a text of the node `c` stands for `r`. -/
inductive TokenAs (x : Live.Around) (builtins : List Str) (nodes : Dict Str Nat) (now : Nat → Str → Option Val) :
    Nat → Str → Str → Prop
  /-- nothing stands between the braces -/
  | empty {c : Nat} : TokenAs x builtins nodes now c [] "BADRESOLVE".toList
  /-- a reference to a node which is not there -/
  | noNode {c : Nat} {content r q a : Str} : AttrContent content → ReadsAs x builtins nodes now c content r →
      NamesAttr nodes c r q a → get? q nodes = none → TokenAs x builtins nodes now c content []
  /-- a reference to an attribute which is not there or is `None` -/
  | noValue {c d : Nat} {content r q a : Str} : AttrContent content → ReadsAs x builtins nodes now c content r →
      NamesAttr nodes c r q a → get? q nodes = some d → FlowName builtins a →
      now d a = none ∨ now d a = some .none → TokenAs x builtins nodes now c content []
  /-- a reference to a text, which is read at its node -/
  | text {c d : Nat} {content r q a v s : Str} : AttrContent content → ReadsAs x builtins nodes now c content r →
      NamesAttr nodes c r q a → get? q nodes = some d → FlowName builtins a →
      now d a = some (.str v) → ReadsAs x builtins nodes now d v s → TokenAs x builtins nodes now c content s
  /-- a reference to another true value, whose `str` is read at its node -/
  | other {c d : Nat} {content r q a s : Str} {v : Val} : AttrContent content →
      ReadsAs x builtins nodes now c content r → NamesAttr nodes c r q a → get? q nodes = some d →
      FlowName builtins a → now d a = some v → StrOnly v → v.truthy = true →
      ReadsAs x builtins nodes now d (x.text v) s → TokenAs x builtins nodes now c content s
  /-- a reference to another false value -/
  | falsy {c d : Nat} {content r q a : Str} {v : Val} : AttrContent content →
      ReadsAs x builtins nodes now c content r → NamesAttr nodes c r q a → get? q nodes = some d →
      FlowName builtins a → now d a = some v → StrOnly v → v.truthy = false →
      TokenAs x builtins nodes now c content (x.text v)
  /-- the path of the node -/
  | path {c : Nat} {p : Str} : (p, c) ∈ nodes → TokenAs x builtins nodes now c "_nxtpath".toList p
  /-- the colour of its layer -/
  | color {c : Nat} : TokenAs x builtins nodes now c "_nxtcolor".toList ((x.color c).getD [])
  /-- an expanded file path -/
  | filepath {c : Nat} {u r : Str} : ReadsAs x builtins nodes now c u r →
      TokenAs x builtins nodes now c ("path::".toList ++ u) (x.expandFile r)
  /-- the path of a file, if there is one -/
  | file {c : Nat} {u r r' : Str} : ReadsAs x builtins nodes now c u r → ReadsAs x builtins nodes now c r r' →
      TokenAs x builtins nodes now c ("file::".toList ++ u)
        (if x.fileExists (x.expandFile r') = true then x.expandFile r' else [])
  /-- the contents of a file, which are read as well -/
  | contents {c : Nat} {u r s s' : Str} : ReadsAs x builtins nodes now c u r → x.contents r = some s →
      ReadsAs x builtins nodes now c s s' → TokenAs x builtins nodes now c ("contents::".toList ++ u) s'
  | noContents {c : Nat} {u r : Str} : ReadsAs x builtins nodes now c u r → x.contents r = none →
      TokenAs x builtins nodes now c ("contents::".toList ++ u) []
end

/-- The text `t` of the node `c` is one reference, to an attribute with the value `v`, or to one whose text is one
reference, and so on up to one with the value `v`. -/
inductive Forwards (x : Live.Around) (builtins : List Str) (nodes : Dict Str Nat) (now : Nat → Str → Option Val) :
    Nat → Str → Val → Prop
  | here {c d : Nat} {content q a : Str} {v : Val} : AttrContent content → opens content = 0 → '}' ∉ content →
      (∀ p ∈ x.plugins, p.detect content = false) → NamesAttr nodes c content q a → get? q nodes = some d →
      FlowName builtins a → now d a = some v → Forwards x builtins nodes now c (['$', '{'] ++ content ++ ['}']) v
  | on {c d : Nat} {content q a t : Str} {v : Val} : AttrContent content → opens content = 0 → '}' ∉ content →
      (∀ p ∈ x.plugins, p.detect content = false) → NamesAttr nodes c content q a → get? q nodes = some d →
      FlowName builtins a → now d a = some (.str t) → Forwards x builtins nodes now d t v →
      Forwards x builtins nodes now c (['$', '{'] ++ content ++ ['}']) v

end Nxt.Spec
