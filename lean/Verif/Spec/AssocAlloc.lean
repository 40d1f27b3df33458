import Verif.Spec.Assoc
/-!
# Specification: associative containers whose allocator may fail

Every call either answers as `Verif.Spec.Assoc` says, or throws `std::bad_alloc`.  `Fails` and `WFails` say what a
call that throws leaves in the containers.
-/

namespace Gtl.Spec

variable {α κ : Type}

/-- What the caller of one operation sees. -/
inductive Out (α : Type) where
  | ok (r : Resp α)
  | badAlloc
  deriving DecidableEq

section
variable (key : α → κ) (eqv : κ → κ → Bool)

/-- `Fails l op l'`: on a container holding `l`, `op` may throw `std::bad_alloc` and leave `l'`.
An insertion of one element throws only if its key is absent, and leaves the container as it was.
A range insertion leaves the elements of the range before the one that could not be inserted, and that one is absent;
or nothing was inserted at all.  Calls that do not add elements and are not about capacity never throw. -/
def Fails (l : List α) (op : Op α κ) (l' : List α) : Prop :=
  match op with
  | .insert a => lookup key eqv l (key a) = none ∧ l' = l
  | .insertOrAssign a _ => lookup key eqv l (key a) = none ∧ l' = l
  | .subscript a _ => lookup key eqv l (key a) = none ∧ l' = l
  | .insertNode n => ∃ a, n = some a ∧ lookup key eqv l (key a) = none ∧ l' = l
  | .toggle a => lookup key eqv l (key a) = none ∧ l' = l
  | .insertRange vs => l' = l ∨ ∃ before a after, vs = before ++ a :: after ∧
      l' = before.foldl (insert key eqv) l ∧ lookup key eqv l' (key a) = none
  | .reserve _ => l' = l
  | .rehash _ => l' = l
  | _ => False

/-- The same for a family of containers.  A `merge` that throws has moved some of the elements the destination lacks
and left all others in the source; at least one that should have moved is still there. -/
def WFails (w : Nat → List α) (op : WOp α κ) (w' : Nat → List α) : Prop :=
  match op with
  | .on i op => ∃ l', Fails key eqv (w i) op l' ∧ w' = put w i l'
  | .create _ n => n ≠ 0 ∧ w' = w
  | .copy _ _ => w' = w
  | .merge i j => ∃ moved rest, (w j).Perm (moved ++ rest) ∧ (∀ a ∈ moved, lookup key eqv (w i) (key a) = none) ∧
      (∃ a ∈ rest, lookup key eqv (w i) (key a) = none) ∧ w' = put (put w i (w i ++ moved)) j rest
  | _ => False

/-- One call and what the caller sees. -/
def WStepA [BEq α] (w : Nat → List α) (op : WOp α κ) (o : Out α) (w' : Nat → List α) : Prop :=
  match o with
  | .ok r => w' = (wstep key eqv w op).1 ∧ r = (wstep key eqv w op).2
  | .badAlloc => WFails key eqv w op w'

/-- A whole history: the caller goes on after exceptions. -/
def WRunA [BEq α] (w : Nat → List α) : List (WOp α κ) → List (Out α) → (Nat → List α) → Prop
  | [], [], w' => w' = w
  | op :: ops, o :: os, w' => ∃ w1, WStepA key eqv w op o w1 ∧ WRunA w1 ops os w'
  | _, _, _ => False

end
end Gtl.Spec
