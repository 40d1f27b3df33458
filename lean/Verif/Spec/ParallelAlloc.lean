import Verif.Spec.Parallel
import Verif.Spec.AssocAlloc
/-!
# Specification: parallel containers whose allocator may fail

As `Verif.Spec.AssocAlloc`, for the interface of the parallel containers. The difference is copy assignment: one that
throws leaves a mixture of the old and the new contents.
-/

namespace Gtl.Spec

variable {α κ : Type}

section
variable (key : α → κ) (eqv : κ → κ → Bool)

/-- On a container holding `l`, `op` may throw `std::bad_alloc` and leave `l'`. -/
def PFails (l : List α) (op : POp α κ) (l' : List α) : Prop :=
  match op with
  | .base (.insertRange vs) => ∃ before a after, vs = before ++ a :: after ∧
      l' = before.foldl (insert key eqv) l ∧ lookup key eqv l' (key a) = none
  | .base op => Fails key eqv l op l'
  | .emplaceL a _ => lookup key eqv l (key a) = none ∧ l' = l
  | _ => False

/-- The same for a family of containers. A copy assignment that throws leaves, for some of the keys (`new`), what the
source has and, for the others, what was there before. -/
def PWFails (w : Nat → List α) (op : PWOp α κ) (w' : Nat → List α) : Prop :=
  match op with
  | .on i op => ∃ l', PFails key eqv (w i) op l' ∧ w' = put w i l'
  | .create _ n => n ≠ 0 ∧ w' = w
  | .copy i j => ∃ new : κ → Bool, (∀ k k', eqv k k' = true → new k = new k') ∧
      w' = put w i ((w j).filter (fun a => new (key a)) ++ (w i).filter (fun a => !new (key a)))
  | .merge i j => ∃ moved rest, (w j).Perm (moved ++ rest) ∧ (∀ a ∈ moved, lookup key eqv (w i) (key a) = none) ∧
      (∃ a ∈ rest, lookup key eqv (w i) (key a) = none) ∧ w' = put (put w i (w i ++ moved)) j rest
  | _ => False

/-- One call and what the caller sees. -/
def PWStepA [BEq α] (w : Nat → List α) (op : PWOp α κ) (o : Out α) (w' : Nat → List α) : Prop :=
  match o with
  | .ok r => w' = (pwstep key eqv w op).1 ∧ r = (pwstep key eqv w op).2
  | .badAlloc => PWFails key eqv w op w'

/-- A whole history: the caller goes on after exceptions. -/
def PWRunA [BEq α] (w : Nat → List α) : List (PWOp α κ) → List (Out α) → (Nat → List α) → Prop
  | [], [], w' => w' = w
  | op :: ops, o :: os, w' => ∃ w1, PWStepA key eqv w op o w1 ∧ PWRunA w1 ops os w'
  | _, _, _ => False

end
end Gtl.Spec
