import Verif.Spec.SortedSeq
/-
Lookups in a sorted container with something that is not a key: the comparison is
transparent and compares keys with the thing looked up. The thing is what it answers
when it is compared with every key.
-/
namespace Gtl.Spec.Query
open Gtl.Spec.SortedSeq

/-- What is looked up: `below k` is `k < q`, `above k` is `q < k`. -/
structure Query (κ : Type) where
  below : κ → Bool
  above : κ → Bool

/-- What the standard asks of the comparisons with `q`: the keys are split, in their order, into those
below, those that match, and those above. -/
structure Fits {κ : Type} (lt : κ → κ → Bool) (q : Query κ) : Prop where
  down : ∀ a b, lt b a = false → q.below b = true → q.below a = true
  up : ∀ a b, lt b a = false → q.above a = true → q.above b = true
  apart : ∀ a, q.below a = true → q.above a = false

/-- The key matches: neither is less than the other. -/
def Query.hits {κ : Type} (q : Query κ) (k : κ) : Bool := !q.below k && !q.above k

end Gtl.Spec.Query
