import Verif.Model.JsonText
/-!
# Specification: the grammar of JSON (RFC 8259) without fractions, exponents and lone surrogates
-/
namespace Nxt.Spec

/-- Spaces, tabs and line ends. -/
def Blanks (s : Str) : Prop := ∀ c ∈ s, c = ' ' ∨ c = '\t' ∨ c = '\n' ∨ c = '\r'

/-- A hexadecimal digit and its value. -/
def HexOf (c : Char) (k : Nat) : Prop :=
  "0123456789abcdef".toList[k]? = some c ∨ "0123456789ABCDEF".toList[k]? = some c

/-- Four hexadecimal digits and their value. -/
inductive FourHex : Nat → Str → Prop
  | mk (a b c d : Char) (i j k l : Nat) : HexOf a i → HexOf b j → HexOf c k → HexOf d l →
      FourHex (4096 * i + 256 * j + 16 * k + l) [a, b, c, d]

/-- The escapes with one letter. -/
def shortEscapes : List (Char × Char) :=
  [('"', '"'), ('\\', '\\'), ('/', '/'), ('b', Char.ofNat 8), ('f', Char.ofNat 12), ('n', '\n'), ('r', '\r'), ('t', '\t')]

/-- The ways of writing a character in a text. -/
inductive CharText : Char → Str → Prop
  | plain (c : Char) : 32 ≤ c.toNat → c ≠ '"' → c ≠ '\\' → CharText c [c]
  | short (e c : Char) : (e, c) ∈ shortEscapes → CharText c ['\\', e]
  | unit (n : Nat) (h : Str) : FourHex n h → ¬(0xd800 ≤ n ∧ n < 0xe000) → CharText (Char.ofNat n) ('\\' :: 'u' :: h)
  | pair (n m : Nat) (h h' : Str) : FourHex n h → FourHex m h' → 0xd800 ≤ n → n < 0xdc00 → 0xdc00 ≤ m → m < 0xe000 →
      CharText (Char.ofNat (0x10000 + (n - 0xd800) * 1024 + (m - 0xdc00))) ('\\' :: 'u' :: h ++ '\\' :: 'u' :: h')

/-- The ways of writing a text: one character after the other. -/
inductive StrText : Str → Str → Prop
  | nil : StrText [] []
  | cons (c : Char) (x : Str) (t s : Str) : CharText c x → StrText t s → StrText (c :: t) (x ++ s)

/-- The value of decimal digits. -/
def numberOf (ds : Str) : Nat := ds.foldl (fun acc c => 10 * acc + (c.toNat - 48)) 0

/-- A whole number without sign: no zero before other digits. -/
inductive NatText : Nat → Str → Prop
  | zero : NatText 0 ['0']
  | more (c : Char) (ds : Str) : (∀ d ∈ c :: ds, 48 ≤ d.toNat ∧ d.toNat ≤ 57) → c ≠ '0' → NatText (numberOf (c :: ds)) (c :: ds)

/-- A whole number. -/
inductive NumText : Int → Str → Prop
  | pos (n : Nat) (s : Str) : NatText n s → NumText n s
  | neg (n : Nat) (s : Str) : NatText n s → NumText (-(n : Int)) ('-' :: s)

/-- An item of a list with the blanks around it. -/
structure Piece where
  before : Str
  val : Val
  text : Str
  after : Str

/-- Items with commas between them. -/
def commaed : List Piece → Str
  | [] => []
  | [p] => p.before ++ p.text ++ p.after
  | p :: l => p.before ++ p.text ++ p.after ++ ',' :: commaed l

/-- An entry of a dict: the key is `name`, written as `keyText`, with the blanks before the colon; the value is a
`Piece`. -/
structure PieceAt where
  blank : Str
  name : Str
  keyText : Str
  colon : Str
  piece : Piece

/-- Entries with commas between them. -/
def colons : List PieceAt → Str
  | [] => []
  | [e] => e.blank ++ '"' :: e.keyText ++ '"' :: e.colon ++ ':' :: e.piece.before ++ e.piece.text ++ e.piece.after
  | e :: l => e.blank ++ '"' :: e.keyText ++ '"' :: e.colon ++ ':' :: e.piece.before ++ e.piece.text ++ e.piece.after ++
      ',' :: colons l

/-- The ways of writing a value. -/
inductive ValText : Val → Str → Prop
  | null : ValText .none "null".toList
  | true : ValText (.bool true) "true".toList
  | false : ValText (.bool false) "false".toList
  | num (z : Int) (s : Str) : NumText z s → ValText (.num z) s
  | str (t s : Str) : StrText t s → ValText (.str t) ('"' :: s ++ ['"'])
  | noItems (b : Str) : Blanks b → ValText (.list []) ('[' :: b ++ [']'])
  | items (l : List Piece) : l ≠ [] → (∀ p ∈ l, Blanks p.before ∧ Blanks p.after) → (∀ p ∈ l, ValText p.val p.text) →
      ValText (.list (l.map (·.val))) ('[' :: commaed l ++ [']'])
  | noEntries (b : Str) : Blanks b → ValText (.dict []) ('{' :: b ++ ['}'])
  | entries (l : List PieceAt) : l ≠ [] →
      (∀ e ∈ l, Blanks e.blank ∧ Blanks e.colon ∧ Blanks e.piece.before ∧ Blanks e.piece.after) →
      (∀ e ∈ l, StrText e.name e.keyText) → (∀ e ∈ l, ValText e.piece.val e.piece.text) →
      ValText (.dict (l.map (fun e => (e.name, e.piece.val)))) ('{' :: colons l ++ ['}'])

/-- A value with blanks around it. -/
def DocText (v : Val) (s : Str) : Prop := ∃ b t b', Blanks b ∧ ValText v t ∧ Blanks b' ∧ s = b ++ t ++ b'

end Nxt.Spec
