import Verif.Utils.BitOps
/-!
# Specification: bytes of numbers in memory
-/

namespace Gtl.Spec.Digits

/-- The `i`-th byte of a number, counted from the lowest. -/
def byte (x i : Nat) : Nat := x / 256 ^ i % 256

/-- Where the `i`-th byte of a number of `k` bytes stands in memory. -/
def place (order : Gtl.BitOps.Order) (k i : Nat) : Nat :=
  match order with
  | .little => i
  | .big => k - 1 - i

end Gtl.Spec.Digits
