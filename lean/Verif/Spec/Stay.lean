import Verif.Spec.Assoc
/-!
# Which calls leave an element of an associative container alone

Used to say when references and iterators stay valid.  Nothing here knows about hash tables.
-/

namespace Gtl.Spec

variable {α κ : Type}

/-- The call does not remove the element with key `k` (it may change its mapped value). -/
def Keeps (key : α → κ) (eqv : κ → κ → Bool) (k : κ) : Op α κ → Prop
  | .erase k' => eqv k k' = false
  | .extract k' => eqv k k' = false
  | .toggle a => eqv k (key a) = false
  | .eraseIf p => ∀ a, eqv (key a) k = true → p a = false
  | .clear => False
  | _ => True

/-- How many elements the call can add. -/
def Op.inserts : Op α κ → Nat
  | .insert _ => 1
  | .insertOrAssign _ _ => 1
  | .subscript _ _ => 1
  | .insertNode _ => 1
  | .toggle _ => 1
  | .insertRange vs => vs.length
  | _ => 0

/-- How many elements a history can add. -/
def insertions (ops : List (Op α κ)) : Nat := (ops.map Op.inserts).sum

/-- Calls that change the capacity on purpose.  Inserting a range reserves room for it first. -/
def Op.Resizes : Op α κ → Prop
  | .insertRange _ => True
  | .reserve _ => True
  | .rehash _ => True
  | _ => False

end Gtl.Spec
