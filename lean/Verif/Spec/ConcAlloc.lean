import Verif.Spec.CallbackThrow
/-!
# Specification: calls from many threads while memory is short

A call, on which elements its callback throws, and how many allocations succeed during it. A call does what
`Verif.Spec.CallbackThrow` says; or, if no allocation succeeds and the call has to add an element, it may throw
`std::bad_alloc`, and then the container is as it was.
-/

namespace Gtl.Spec

variable {α κ ρ : Type}

structure MemOp (α κ : Type) where
  cb : CbOp α κ
  /-- how many allocations succeed before one throws -/
  mem : Nat

/-- How a call ends. -/
inductive Ended (ρ : Type) where
  | ret (r : ρ)
  /-- with the exception of the callback -/
  | threw
  /-- with `std::bad_alloc` -/
  | badAlloc
  deriving DecidableEq

/-- A call that did not run out of memory. -/
def Ended.of : End ρ → Ended ρ
  | .ret r => .ret r
  | .threw => .threw

section
variable (key : α → κ) (eqv : κ → κ → Bool)

/-- The call adds an element to a container holding `l`. -/
def Adds (l : List α) : POp α κ → Prop
  | .base (.insert a) => lookup key eqv l (key a) = none
  | .base (.insertOrAssign a _) => lookup key eqv l (key a) = none
  | .base (.insertNode (some a)) => lookup key eqv l (key a) = none
  | .base (.toggle a) => lookup key eqv l (key a) = none
  | .emplaceL a _ => lookup key eqv l (key a) = none
  | _ => False

def MemStep (l : List α) (o : MemOp α κ) (l' : List α) (r : Ended (Resp α)) : Prop :=
  (l' = (cbStep key eqv l o.cb).1 ∧ r = .of (cbStep key eqv l o.cb).2) ∨
  (o.mem = 0 ∧ Adds key eqv l o.cb.call ∧ l' = l ∧ r = .badAlloc)

end
end Gtl.Spec
