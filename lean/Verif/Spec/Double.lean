/-!
# Specification: values of IEEE doubles

The value of a double times 2^1074, which is an integer. Infinities count as the next power of two.
-/

namespace Gtl.Spec.Double

/-- The absolute value times 2^1074, from the 11 bits of the exponent and the 52 bits of the fraction. -/
def magnitude (b : Int) : Int :=
  let e := (b % 2 ^ 63) / 2 ^ 52
  let m := b % 2 ^ 52
  if e = 0 then m else (2 ^ 52 + m) * 2 ^ (e.toNat - 1)

/-- The value times 2^1074. -/
def value (b : Int) : Int := if b < 2 ^ 63 then magnitude b else - magnitude b

/-- Not a number. -/
def isNaN (b : Int) : Bool := decide (2047 * 2 ^ 52 < b % 2 ^ 63)

end Gtl.Spec.Double
