import Verif.Spec.Bits
/-!
# Index-wise form of the operations on lists of bits, used in the proofs
-/

namespace Gtl.Bits

open Gtl.Spec.Bits

/-- Bit `i`, false outside. -/
def at' (l : List Bool) (i : Nat) : Bool := l.getD i false

/-- Replace the bits of the view by `g i b`, where `i` is the index in the whole vector. -/
def mapView (l : List Bool) (first last : Nat) (g : Nat → Bool → Bool) : List Bool :=
  l.mapIdx fun i b => if first ≤ i ∧ i < last then g i b else b

/-- Combine each bit of the view with the corresponding bit of a source view that starts at `ofirst`. -/
def combine (g : Bool → Bool → Bool) (l : List Bool) (first last : Nat) (o : List Bool) (ofirst : Nat) : List Bool :=
  mapView l first last fun i b => g b (at' o (ofirst + (i - first)))

/-- Move every bit of the view up by `n`; zeros come in at the bottom. -/
def up (l : List Bool) (first last n : Nat) : List Bool :=
  mapView l first last fun i _ => if first + n ≤ i then at' l (i - n) else false

/-- Move every bit of the view down by `n`; zeros come in at the top. -/
def down (l : List Bool) (first last n : Nat) : List Bool :=
  mapView l first last fun i _ => if i + n < last then at' l (i + n) else false

end Gtl.Bits
