/-!
# Specification: a node with the elements of a map in it (C125)
-/

namespace Gtl.Spec.MapSlots

/-- The places hold exactly the elements of the list, from the first place on; all others are empty. -/
def Holds {E : Type} (slots : Nat → Option E) (l : List E) : Prop := ∀ j : Nat, slots j = l[j]?

/-- The list without `n` elements from index `i` on. -/
def without {E : Type} (l : List E) (i n : Nat) : List E := l.take i ++ l.drop (i + n)

/-- The list with `x` before index `i`. -/
def inserted {E : Type} (l : List E) (i : Nat) (x : E) : List E := l.take i ++ x :: l.drop i

end Gtl.Spec.MapSlots
