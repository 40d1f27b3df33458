/-!
# The order of strings

The alphabetic order of byte strings, said twice: by the first difference, and by the order of lists of Lean's library.
-/

namespace Gtl.Spec.StrOrder

/-- `a` comes before `b` in the dictionary: `b` continues `a`, or at the first difference the byte of `a` is the smaller one. -/
def Before (a b : List (Fin 256)) : Prop :=
  (∃ y t, b = a ++ y :: t) ∨ (∃ p x s y t, a = p ++ x :: s ∧ b = p ++ y :: t ∧ x < y)

/-- What `std::less<std::string>` answers. -/
def less (a b : List (Fin 256)) : Bool := decide (a < b)

/-- What `std::greater<std::string>` answers. -/
def greater (a b : List (Fin 256)) : Bool := decide (b < a)

end Gtl.Spec.StrOrder
