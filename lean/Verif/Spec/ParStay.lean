import Verif.Spec.Parallel
import Verif.Spec.Stay
/-!
# Which calls on a parallel container leave an element alone

Used to say when references and iterators stay valid.  Nothing here knows about hash tables.
-/

namespace Gtl.Spec

variable {α κ : Type}

/-- The call does not remove the element with key `k` (it may change its mapped value). -/
def PKeeps (key : α → κ) (eqv : κ → κ → Bool) (k : κ) : POp α κ → Prop
  | .base op => Keeps key eqv k op
  | .eraseIfKey k' p => ∀ a, eqv (key a) k = true → eqv k k' = true → p a = false
  | _ => True

/-- The keys of the elements the call can add. -/
def POp.adds (key : α → κ) : POp α κ → List κ
  | .base (.insert a) => [key a]
  | .base (.insertOrAssign a _) => [key a]
  | .base (.subscript a _) => [key a]
  | .base (.insertNode (some a)) => [key a]
  | .base (.toggle a) => [key a]
  | .base (.insertRange vs) => vs.map key
  | .emplaceL a _ => [key a]
  | _ => []

/-- Calls that change the capacity on purpose. -/
def POp.Resizes : POp α κ → Prop
  | .base (.reserve _) => True
  | .base (.rehash _) => True
  | _ => False

/-- How many elements a history can add to the submap `i`, where `sub` says which submap a key belongs to. -/
def addsTo (key : α → κ) (sub : κ → Nat) (i : Nat) (ops : List (POp α κ)) : Nat :=
  (ops.flatMap (POp.adds key)).countP (fun k => sub k == i)

end Gtl.Spec
