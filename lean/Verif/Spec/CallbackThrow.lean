import Verif.Spec.Parallel
/-!
# Specification: callbacks that throw

A call with a callback, and on which elements the callback throws. The callback may have changed the element before
it threw (`modify_if`, `try_emplace_l`); that change stays, and nothing else happens. A predicate that throws erases
nothing.
-/

namespace Gtl.Spec

variable {α κ ρ : Type}

/-- How a call ends. -/
inductive End (ρ : Type) where
  | ret (r : ρ)
  /-- the exception of the callback reaches the caller -/
  | threw
  deriving DecidableEq

structure CbOp (α κ : Type) where
  call : POp α κ
  /-- the elements on which the callback throws -/
  throws : α → Bool

section
variable (key : α → κ) (eqv : κ → κ → Bool)

/-- The element the callback is called with, if it is called. -/
def cbElem (l : List α) : POp α κ → Option α
  | .ifContains k => lookup key eqv l k
  | .modifyIf k _ => lookup key eqv l k
  | .eraseIfKey k _ => lookup key eqv l k
  | .emplaceL a _ => lookup key eqv l (key a)
  | _ => none

/-- What stays when the callback throws. -/
def cbLeft (l : List α) : POp α κ → List α
  | .modifyIf k f => modify key eqv l k f
  | .emplaceL a f => modify key eqv l (key a) f
  | _ => l

def cbStep (l : List α) (o : CbOp α κ) : List α × End (Resp α) :=
  if (cbElem key eqv l o.call).any o.throws then (cbLeft key eqv l o.call, .threw)
  else ((pstep key eqv l o.call).1, .ret (pstep key eqv l o.call).2)

end
end Gtl.Spec
