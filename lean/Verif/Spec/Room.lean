import Verif.Spec.Assoc
/-!
# Specification: how much room a history asks for

Knows nothing about hash tables: the number of elements the containers of a history hold and the amounts its calls
ask for by name (`reserve(n)`, `rehash(n)`, a constructor with a bucket count, a range of known length).
-/

namespace Gtl.Spec

variable {α κ : Type}

/-- The calls that put at most one new element in. -/
def InsertsOne : Op α κ → Prop
  | .insert _ => True
  | .insertOrAssign _ _ => True
  | .subscript _ _ => True
  | .insertNode _ => True
  | .toggle _ => True
  | _ => False

/-- The calls that put nothing in and do not ask for room. -/
def PutsNothing : Op α κ → Prop
  | .at _ => True
  | .find _ => True
  | .contains _ => True
  | .count _ => True
  | .erase _ => True
  | .eraseIf _ => True
  | .extract _ => True
  | .size => True
  | .clear => True
  | _ => False

/-- The amount of room a call on a container with elements `l` asks for. -/
def asked (l : List α) : Op α κ → Nat
  | .reserve n => n
  | .rehash n => n
  | .insertRange vs => l.length + vs.length
  | _ => 0

/-- The amount of room a call on a family of containers asks for. -/
def wasked (w : Nat → List α) : WOp α κ → Nat
  | .on i op => asked (w i) op
  | .create _ n => n
  | _ => 0

/-- Throughout the history no container ever holds more than `P` elements, and no call asks for room for more. -/
def Within [BEq α] (key : α → κ) (eqv : κ → κ → Bool) (P : Nat) : (Nat → List α) → List (WOp α κ) → Prop
  | w, [] => ∀ i, (w i).length ≤ P
  | w, op :: ops => (∀ i, (w i).length ≤ P) ∧ wasked w op ≤ P ∧ Within key eqv P (wstep key eqv w op).1 ops

/-- The same for one container. -/
def Within1 (key : α → κ) (eqv : κ → κ → Bool) (P : Nat) : List α → List (Op α κ) → Prop
  | l, [] => l.length ≤ P
  | l, op :: ops => l.length ≤ P ∧ asked l op ≤ P ∧ Within1 key eqv P (step key eqv l op).1 ops

end Gtl.Spec
