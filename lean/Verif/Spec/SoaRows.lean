import Verif.Spec.Soa
/-!
# Specification: how long a row can be used

A table of rows as in `Verif.Spec.Soa`. A reference to the row at an index may be used as long as there is such a row, and
the table has not been made larger than the room that was there.
-/

namespace Gtl.Spec.SoaRows

open Gtl.Spec.Soa

variable {m : Nat} {T : Fin (m + 1) → Type}

/-- The number of rows after an operation. -/
def sizeAfter (k : Nat) : Op T → Nat
  | .insert _ => k + 1
  | .resize n => n
  | .clear => 0
  | _ => k

/-- From `k` rows on, the table always has a row at `j`, never more than `room` rows, and no more room is asked for. -/
def Keeps (room j : Nat) : Nat → List (Op T) → Prop
  | _, [] => True
  | k, op :: ops => j < sizeAfter k op ∧ sizeAfter k op ≤ room ∧ (∀ n, op = .reserve n → n ≤ room) ∧
      Keeps room j (sizeAfter k op) ops

/-- The row with the fields in the list replaced, one after another. -/
def patch (r : Row T) (l : List (Σ c, T c)) : Row T :=
  l.foldl (fun r p j => if h : j = p.1 then h ▸ p.2 else r j) r

end Gtl.Spec.SoaRows
