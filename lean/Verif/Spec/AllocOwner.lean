/-
What a container must do with its allocator: the rules of the C++ standard for allocator-aware containers.
A container is described by what `get_allocator()` answers and by its elements. Allocators are told apart by
their `==` only: two that compare equal are the same `A`.
-/
namespace Gtl.Spec.AllocOwner
variable {A α : Type}

/-- The three `propagate_on_container_*` members of the allocator's traits. -/
structure Traits where
  copyAssign : Bool
  moveAssign : Bool
  swap : Bool

/-- Which allocator a container gets. -/
structure Rules (A : Type) where
  /-- of a copy of a container with this allocator -/
  copied : A → A
  /-- of a container made by moving one with this allocator -/
  moved : A → A
  /-- of a container made by moving another one and asking for this allocator -/
  movedWith : A → A
  /-- does a copy assignment take the allocator of the source? -/
  copyAssign : Bool
  /-- does a move assignment take the allocator of the source? -/
  moveAssign : Bool
  /-- does `swap` exchange the allocators? -/
  swap : Bool
  /-- are there constructors that copy or move a container and take an allocator? -/
  withAlloc : Bool

/-- The rules of the standard. `select` is `select_on_container_copy_construction`. -/
def Rules.standard (tr : Traits) (select : A → A) : Rules A where
  copied := select
  moved a := a
  movedWith a := a
  copyAssign := tr.copyAssign
  moveAssign := tr.moveAssign
  swap := tr.swap
  withAlloc := true

/-- What is done with a number of containers, counted from 0 in the order of their creation. -/
inductive Op (A : Type) where
  /-- an empty container with this allocator is made -/
  | make (a : A)
  /-- any calls that concern this container alone: insertions, erasures, … -/
  | use (i : Nat)
  | copy (i : Nat)
  | copyWith (i : Nat) (a : A)
  | move (i : Nat)
  | moveWith (i : Nat) (a : A)
  /-- `c_i = c_j` -/
  | copyAssign (i j : Nat)
  /-- `c_i = std::move(c_j)` -/
  | moveAssign (i j : Nat)
  | swap (i j : Nat)
  /-- the end of container `i`; those after it move up -/
  | destroy (i : Nat)

/-- What the caller must see to: the containers are there, the call exists, two different ones where there are two, and `swap`
needs equal allocators unless it exchanges them. -/
def Ok (r : Rules A) (w : List (A × List α)) : Op A → Prop
  | .make _ => True
  | .use i | .copy i | .move i | .destroy i => i < w.length
  | .copyWith i _ | .moveWith i _ => i < w.length ∧ r.withAlloc = true
  | .copyAssign i j | .moveAssign i j => i < w.length ∧ j < w.length ∧ i ≠ j
  | .swap i j => i < w.length ∧ j < w.length ∧ i ≠ j ∧ (r.swap = true ∨ w[i]?.map Prod.fst = w[j]?.map Prod.fst)

/-- What each call does with allocators and elements. What is in a container from which another was moved is
not specified, and neither is what the calls in `use` do to the elements. -/
inductive Step (r : Rules A) (w : List (A × List α)) : Op A → List (A × List α) → Prop
  | make {a} : Step r w (.make a) (w ++ [(a, [])])
  | use {i a vs vs'} : w[i]? = some (a, vs) → Step r w (.use i) (w.set i (a, vs'))
  | copy {i a vs} : w[i]? = some (a, vs) → Step r w (.copy i) (w ++ [(r.copied a, vs)])
  | copyWith {i a b vs} : w[i]? = some (a, vs) → Step r w (.copyWith i b) (w ++ [(b, vs)])
  | move {i a vs vs'} : w[i]? = some (a, vs) → Step r w (.move i) (w.set i (a, vs') ++ [(r.moved a, vs)])
  | moveWith {i a b vs vs'} : w[i]? = some (a, vs) →
      Step r w (.moveWith i b) (w.set i (a, vs') ++ [(r.movedWith b, vs)])
  | copyAssign {i j a b us vs} : w[i]? = some (a, us) → w[j]? = some (b, vs) →
      Step r w (.copyAssign i j) (w.set i (if r.copyAssign then b else a, vs))
  | moveAssign {i j a b c us vs vs'} : w[i]? = some (a, us) → w[j]? = some (b, vs) → c = a ∨ c = b →
      Step r w (.moveAssign i j) ((w.set i (if r.moveAssign then b else a, vs)).set j (c, vs'))
  | swap {i j x y} : w[i]? = some x → w[j]? = some y → Step r w (.swap i j) ((w.set i y).set j x)
  | destroy {i} : Step r w (.destroy i) (w.eraseIdx i)

/-- A history. -/
inductive Run (r : Rules A) : List (A × List α) → List (Op A) → List (A × List α) → Prop
  | nil {w} : Run r w [] w
  | cons {w w' w'' op ops} : Step r w op w' → Run r w' ops w'' → Run r w (op :: ops) w''

/-- The caller keeps to the preconditions whatever is left open in `Step`. -/
def Safe (r : Rules A) : List (A × List α) → List (Op A) → Prop
  | _, [] => True
  | w, op :: ops => Ok r w op ∧ ∀ w', Step r w op w' → Safe r w' ops

end Gtl.Spec.AllocOwner
