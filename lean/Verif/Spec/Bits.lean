/-!
# Specification of bit vectors: lists of Booleans

Independent of the model. A view is a range `[first, last)` of a vector.
-/

namespace Gtl.Spec.Bits

/-- The bits of a view. -/
def slice (l : List Bool) (first last : Nat) : List Bool := (l.take last).drop first

/-- The vector with the bits of the view replaced by `m`. -/
def replace (l : List Bool) (first last : Nat) (m : List Bool) : List Bool := l.take first ++ m ++ l.drop last

/-- Move every bit up by `n`; zeros come in at the bottom. -/
def shiftUp (n : Nat) (m : List Bool) : List Bool := List.replicate (min n m.length) false ++ m.take (m.length - n)

/-- Move every bit down by `n`; zeros come in at the top. -/
def shiftDown (n : Nat) (m : List Bool) : List Bool := m.drop n ++ List.replicate (min n m.length) false

/-- The binary digits of a word, lowest first. -/
def wordBits (w : BitVec 64) : List Bool := (List.range 64).map fun i => w.getLsbD i

/-- The binary digits of a sequence of words. -/
def wordsBits (ws : List (BitVec 64)) : List Bool := ws.flatMap wordBits

/-- Keep the first `n` bits, or add bits `b` up to `n`. -/
def resize (l : List Bool) (n : Nat) (b : Bool) : List Bool := l.take n ++ List.replicate (n - l.length) b

/-- Position of the first set bit. -/
def findFirst (l : List Bool) : Option Nat := l.findIdx? id

/-- Position of the first set bit at or after `start`. -/
def findNext (l : List Bool) (start : Nat) : Option Nat := (findFirst (l.drop start)).map (· + start)

/-- Every bit of `o` is set in `l`. -/
def contains (l o : List Bool) : Bool := (List.zip l o).all fun p => !p.2 || p.1

/-- No common index is set in both. -/
def disjoint (l o : List Bool) : Bool := (List.zip l o).all fun p => !(p.1 && p.2)

/-- The number with these binary digits, lowest first. -/
def value : List Bool → Nat
  | [] => 0
  | b :: l => b.toNat + 2 * value l

/-- Hexadecimal digit. -/
def hexDigit (n : Nat) : Char := "0123456789abcdef".toList.getD n '?'

/-- Bit `i`, false outside. -/
def bitAt (l : List Bool) (i : Nat) : Bool := l.getD i false

/-- Two hexadecimal digits per started group of eight bits, highest first; the lowest bit is in the last digit. -/
def hexDigits (l : List Bool) : List Char :=
  ((List.range (2 * ((l.length + 7) / 8))).map fun k =>
    hexDigit (value [bitAt l (4 * k), bitAt l (4 * k + 1), bitAt l (4 * k + 2), bitAt l (4 * k + 3)])).reverse

/-- The printed form of a view. -/
def hexString (l : List Bool) : List Char := if l = [] then "<empty>".toList else '0' :: 'x' :: hexDigits l

end Gtl.Spec.Bits
