/-!
# Specification: slices of a sequence
-/

namespace Gtl.Spec.Slices

variable {α : Type}

/-- The elements at the positions `first`, `first + stride`, ... before `last`. -/
def elements (v : List α) (first last stride : Nat) : List α :=
  ((List.range v.length).filter (fun p => decide (first ≤ p ∧ p < last ∧ (p - first) % stride = 0))).filterMap (fun p => v[p]?)

/-- The position of an index: `-1` is the end, `-2` the last element, and so on. -/
def fromEnd (n : Nat) (i : Int) : Int := if 0 ≤ i then i else n + 1 + i

/-- The position of an index in Python: `-1` is the last element. -/
def python (n : Nat) (i : Int) : Int := if 0 ≤ i then i else n + i

end Gtl.Spec.Slices
