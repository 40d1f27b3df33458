/-
What `erase_if` does with a predicate that may throw and may have a memory, on a list: the specification
of C106. It knows nothing about the containers.
-/
namespace Gtl.Spec.Asked

/-- What the predicate says about an element: it returns `false`, returns `true`, or throws. -/
inductive Answer where
  | keep
  | erase
  | throw
deriving DecidableEq, Repr

/-- A predicate in state `s` looks at an element, answers, and is in another state. -/
abbrev Pred (σ α : Type) := σ → α → Answer × σ

variable {σ α : Type}

/-- The elements that are left, the state of the predicate, and whether an exception ended the call: the
predicate is asked about the elements one after the other, once each; the ones it wants erased are erased
at once; when it throws, that element and all after it stay. -/
def left (pred : Pred σ α) : σ → List α → List α × σ × Bool
  | s, [] => ([], s, false)
  | s, a :: l =>
    match pred s a with
    | (.keep, s) => (a :: (left pred s l).1, (left pred s l).2)
    | (.erase, s) => left pred s l
    | (.throw, s) => (a :: l, s, true)

end Gtl.Spec.Asked
