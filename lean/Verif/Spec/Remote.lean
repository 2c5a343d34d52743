import Verif.Model.Py
/-!
# Specifications for the log stream, the socket header and the tracked logs
-/
namespace Nxt.Spec

/-- The four bytes of a length, most significant first. -/
def be32 (n : Nat) : List Nat := [n / 16777216 % 256, n / 65536 % 256, n / 256 % 256, n % 256]

/-- What the sender writes for a sequence of records. -/
def frames : List (List Nat) → List Nat
  | [] => []
  | r :: rs => be32 r.length ++ r ++ frames rs

/-- `b` is the position of an end of a segment. -/
def SegmentEnd (segs : List (List Nat)) (b : Nat) : Prop := ∃ k, b = (segs.take k).flatten.length

/-- `o` is the position at which the frame of a record starts. -/
def FrameStart (rs : List (List Nat)) (o : Nat) : Prop :=
  ∃ before r after, rs = before ++ r :: after ∧ o = (frames before).length

/-- No header of a frame is spread over two segments. -/
def HeadersWhole (rs segs : List (List Nat)) : Prop :=
  ∀ o b, FrameStart rs o → SegmentEnd segs b → ¬ (o < b ∧ b < o + 4)

/-- The number written with these decimal digits. -/
def numeral : Str → Nat
  | [] => 0
  | c :: cs => (c.toNat - 48) * 10 ^ cs.length + numeral cs

/-- The list is what is left of `l` after dropping entries, with the given number of copies each. -/
def Thinned (copies : Str → Nat) (l r : List Str) : Prop :=
  r.Sublist l ∧ ∀ q, r.count q = copies q

end Nxt.Spec
