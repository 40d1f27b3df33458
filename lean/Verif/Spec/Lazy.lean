/-!
# Specification: lists whose elements are computed from each other

A list is given by its first element and a function that computes any other element. The function may ask for elements of
the list, whichever it wants, and decide what to do by their values.
-/

namespace Gtl.Spec.Lazy

/-- What the function does at one index: it returns a value, or asks for the element at index `j` and goes on. -/
inductive Body (T : Type) where
  | ret (v : T)
  | ask (j : Nat) (k : T → Body T)

/-- The function, having this left to do, returns `v`. -/
inductive Gives {T : Type} (first : T) (next : Nat → Body T) : Body T → T → Prop
  | ret {v} : Gives first next (.ret v) v
  | first {k v} : Gives first next (k first) v → Gives first next (.ask 0 k) v
  | other {j k w v} : 0 < j → Gives first next (next j) w → Gives first next (k w) v → Gives first next (.ask j k) v

/-- The element at index `i` is `v`. -/
def Element {T : Type} (first : T) (next : Nat → Body T) (i : Nat) (v : T) : Prop :=
  (i = 0 ∧ v = first) ∨ (0 < i ∧ Gives first next (next i) v)

/-- Asks only for elements before index `i`. -/
inductive Below {T : Type} (i : Nat) : Body T → Prop
  | ret {v} : Below i (.ret v)
  | ask {j k} : j < i → (∀ w, Below i (k w)) → Below i (.ask j k)

end Gtl.Spec.Lazy
