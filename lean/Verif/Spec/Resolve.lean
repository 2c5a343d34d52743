import Verif.Spec.Tokens
import Verif.Model.Resolve
/-!
# Specification vocabulary for token resolution

`Means` is the graph of `resolve` for a large enough recursion limit.  Everything else is written
down without the resolver: which kind of token a content is, which node and attribute a reference
names, which further texts a text needs, and the text obtained by putting meanings in the place of
tokens.
-/
namespace Nxt.Spec
open Resolve

/-- `${c}` is a standalone token of a text in which every opener is closed, and no plugin claims it. -/
def HasToken {N : Type} (g : Graph N) (text c : Str) : Prop :=
  (∃ ts, Parse text ts true ∧ ['$', '{'] ++ c ++ ['}'] ∈ ts) ∧ ∀ p ∈ g.plugins, p.detect c = false

/-- The content of an attribute reference: not empty and none of the special tokens. -/
def AttrContent (c : Str) : Prop :=
  c ≠ [] ∧ (∀ u, c ≠ "file::".toList ++ u) ∧ (∀ u, c ≠ "path::".toList ++ u) ∧
    (∀ u, c ≠ "contents::".toList ++ u) ∧ c ≠ "_nxtpath".toList ∧ c ≠ "_nxtcolor".toList

/-- `p` and `a` are the node path and the attribute name of the reference `r`. -/
def SplitRef (r p a : Str) : Prop := r = p ++ ['.'] ++ a ∧ '.' ∉ a ∧ p ≠ [] ∧ a ≠ []

/-- The reference `r`, read at node `n`, names the attribute `a` of the node at path `q`. -/
inductive RefNames {N : Type} (g : Graph N) (n : N) : Str → Str → Str → Prop
  | other {r p a q : Str} : SplitRef r p a → Path.expandRelative (some p) (g.pathOf n) = some q →
      RefNames g n r q a
  | own {r q : Str} : (∀ p a, ¬ SplitRef r p a) →
      Path.expandRelative (some (g.pathOf n)) (g.pathOf n) = some q → RefNames g n r q r

/-- The attribute has a true value, and this is its text. -/
def ValueText {N : Type} (g : Graph N) (n : N) (a v : Str) : Prop :=
  (g.attr n a = .str v ∧ v ≠ []) ∨ g.attr n a = .other true v

/-- With a large enough recursion limit the text resolves to `r` at node `n`. -/
def Means {N : Type} (g : Graph N) (n : N) (text r : Str) : Prop :=
  ∃ f, Resolve.resolve g f n text = .ok r

/-- Resolving the first text at its node asks for the second. -/
inductive Needs {N : Type} (g : Graph N) : N × Str → N × Str → Prop
  | attrInner {n : N} {text c : Str} : HasToken g text c → AttrContent c → Needs g (n, text) (n, c)
  | attrValue {n m : N} {text c r q a v : Str} : HasToken g text c → AttrContent c → Means g n c r →
      RefNames g n r q a → g.lookup q = some m → ValueText g m a v → Needs g (n, text) (m, v)
  | pathInner {n : N} {text u : Str} : HasToken g text ("path::".toList ++ u) → Needs g (n, text) (n, u)
  | fileInner {n : N} {text u : Str} : HasToken g text ("file::".toList ++ u) → Needs g (n, text) (n, u)
  | fileAgain {n : N} {text u r : Str} : HasToken g text ("file::".toList ++ u) → Means g n u r →
      Needs g (n, text) (n, r)
  | contentsInner {n : N} {text u : Str} : HasToken g text ("contents::".toList ++ u) →
      Needs g (n, text) (n, u)
  | contentsText {n : N} {text u r s : Str} : HasToken g text ("contents::".toList ++ u) →
      Means g n u r → g.contents r = some s → Needs g (n, text) (n, s)

/-- No chain of needs from here goes on for ever. -/
def Grounded {N : Type} (g : Graph N) (x : N × Str) : Prop := Acc (fun a b => Needs g b a) x

/-- Nodes have absolute paths, and no protected attribute holds a false value that is not a text. -/
def Regular {N : Type} (g : Graph N) : Prop :=
  (∀ n, ∃ s, g.pathOf n = '/' :: s) ∧ ∀ n a s, g.attr n a = .other false s → g.isProtected a = false

/-- A reference written without nested tokens: the value of the first attribute has a token that
names the second one. -/
def RefersTo {N : Type} (g : Graph N) (x y : N × Str) : Prop :=
  ∃ v c q, ValueText g x.1 x.2 v ∧ HasToken g v c ∧ AttrContent c ∧ opens c = 0 ∧
    RefNames g x.1 c q y.2 ∧ g.lookup q = some y.1

/-- All tokens in true attribute values are attribute references without nested tokens. -/
def PlainGraph {N : Type} (g : Graph N) : Prop :=
  g.plugins = [] ∧ ∀ n a v ts, ValueText g n a v → Parse v ts true →
    ∀ c, ['$', '{'] ++ c ++ ['}'] ∈ ts → AttrContent c ∧ opens c = 0

/-- What an attribute reference stands for, once nested tokens are resolved. -/
inductive RefMeans {N : Type} (g : Graph N) (n : N) : Str → Str → Prop
  | value {r q a v s : Str} {m : N} : RefNames g n r q a → g.lookup q = some m → ValueText g m a v →
      Means g m v s → RefMeans g n r s
  | noNode {r q a : Str} : RefNames g n r q a → g.lookup q = none → RefMeans g n r []
  | noValue {r q a : Str} {m : N} : RefNames g n r q a → g.lookup q = some m →
      (g.attr m a = .missing ∨ g.attr m a = .none ∨ g.attr m a = .str []) → RefMeans g n r []
  | falseValue {r q a s : Str} {m : N} : RefNames g n r q a → g.lookup q = some m →
      g.attr m a = .other false s → g.isProtected a = false → RefMeans g n r s

/-- What a token `${c}` stands for. -/
inductive TokenMeans {N : Type} (g : Graph N) (n : N) : Str → Str → Prop
  | empty : TokenMeans g n [] "BADRESOLVE".toList
  | attr {c r s : Str} : AttrContent c → Means g n c r → RefMeans g n r s → TokenMeans g n c s
  | filepath {u r : Str} : Means g n u r → TokenMeans g n ("path::".toList ++ u) (g.expandFile r)
  | file {u r r' : Str} : Means g n u r → Means g n r r' → g.fileExists (g.expandFile r') = true →
      TokenMeans g n ("file::".toList ++ u) (g.expandFile r')
  | noFile {u r r' : Str} : Means g n u r → Means g n r r' → g.fileExists (g.expandFile r') = false →
      TokenMeans g n ("file::".toList ++ u) []
  | contents {u r s s' : Str} : Means g n u r → g.contents r = some s → Means g n s s' →
      TokenMeans g n ("contents::".toList ++ u) s'
  | noContents {u r : Str} : Means g n u r → g.contents r = none →
      TokenMeans g n ("contents::".toList ++ u) []
  | path : TokenMeans g n "_nxtpath".toList (g.pathOf n)
  | color {s : Str} : g.color n = some s → TokenMeans g n "_nxtcolor".toList s
  | noColor : g.color n = none → TokenMeans g n "_nxtcolor".toList []

/-- `Renders m text out`: `out` is `text` with every standalone token `t` replaced by `m t`. -/
inductive Renders (m : Str → Str) : Str → Str → Prop
  | done {gap : Str} : opens gap = 0 → Renders m gap gap
  | tok {gap t rest out : Str} : opens gap = 0 → IsToken t → Renders m rest out →
      Renders m (gap ++ t ++ rest) (gap ++ m t ++ out)

/-- A replacement that cannot be mistaken for (part of) a token: no opener in it, none begun at its
end. -/
def Inert (s : Str) : Prop := opens s = 0 ∧ s.getLast? ≠ some '$'

/-- No token is written inside another one of the list. -/
def NotNested (ts : List Str) : Prop :=
  ∀ t ∈ ts, ∀ t' ∈ ts, ∀ a b, t' = a ++ t ++ b → a = []

end Nxt.Spec
