/-!
# Specification: several nodes with elements of a map (C125)
-/

namespace Gtl.Spec.MapNodes

/-- The `cap` places from `base` on hold exactly the elements of the list, from the first place on. -/
def Node {E : Type} (slots : Nat → Option E) (cap base : Nat) (l : List E) : Prop :=
  l.length ≤ cap ∧ ∀ j : Nat, j < cap → slots (base + j) = l[j]?

/-- Two nodes with `cap` places have no place in common. -/
def Apart (cap a b : Nat) : Prop := a + cap ≤ b ∨ b + cap ≤ a

/-- The place is not in the node. -/
def Outside (cap a p : Nat) : Prop := p < a ∨ a + cap ≤ p

end Gtl.Spec.MapNodes
