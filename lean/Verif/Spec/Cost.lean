import Verif.Spec.Assoc
/-!
# Specification: the price of a history

What the caller of an associative container is charged for, counted on the abstract container (a list of
elements) and on the calls only.
-/

namespace Gtl.Spec

variable {α κ : Type}

/-- How many keys (or elements, each with its key) the caller passes. -/
def Op.keys : Op α κ → Nat
  | .insert _ => 1
  | .insertOrAssign _ _ => 1
  | .subscript _ _ => 1
  | .at _ => 1
  | .find _ => 1
  | .contains _ => 1
  | .count _ => 1
  | .erase _ => 1
  | .extract _ => 1
  | .insertNode none => 0
  | .insertNode (some _) => 1
  | .toggle _ => 1
  | .insertRange vs => vs.length
  | .eraseIf _ => 0
  | .size => 0
  | .clear => 0
  | .reserve _ => 0
  | .rehash _ => 0

/-- How much room beyond the `n` elements that are there the caller asks for in advance. -/
def Op.room (n : Nat) : Op α κ → Nat
  | .insertRange vs => vs.length
  | .reserve m => m - n
  | .rehash m => m - n
  | _ => 0

section
variable (key : α → κ) (eqv : κ → κ → Bool)

/-- How many elements the call adds. -/
def Op.added (l : List α) (op : Op α κ) : Nat := (step key eqv l op).1.length - l.length

/-- Keys passed in a history. -/
def totalKeys (ops : List (Op α κ)) : Nat := (ops.map Op.keys).sum

/-- Elements added in a history that begins with the elements `l`. -/
def totalAdded (l : List α) : List (Op α κ) → Nat
  | [] => 0
  | op :: ops => op.added key eqv l + totalAdded (step key eqv l op).1 ops

/-- Room asked for in advance in a history that begins with the elements `l`. -/
def totalRoom (l : List α) : List (Op α κ) → Nat
  | [] => 0
  | op :: ops => op.room l.length + totalRoom (step key eqv l op).1 ops

end
end Gtl.Spec
