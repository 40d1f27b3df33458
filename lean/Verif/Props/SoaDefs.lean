import Verif.Soa.Model
/-!
# Vocabulary of the properties of `soa`
-/

namespace Gtl.Soa

open Gtl.Spec.Soa

variable {m : Nat} {T : Fin (m + 1) → Type}

/-- What the standard says of `std::stable_sort`. -/
def Sorter.Ok (S : Sorter) : Prop :=
  ∀ {α : Type} (lt : α → α → Bool) (l : List α), StrictWeak lt (· ∈ l) → StableSortOf lt l (S.sort lt l)

/-- What can be observed of a `soa`: it has these rows. `size()` is their number, `operator[]` returns them and is undefined
beyond them, and every column has an entry for each of them. -/
structure Shows (s : Soa T) (rows : List (Row T)) : Prop where
  size : s.size = rows.length
  row : ∀ (j : Nat), s.row j = match rows[j]? with
    | some r => .ok (fun i => some (r i))
    | none => .ub
  col : ∀ i, s.col i = rows.map (fun r => r i)

end Gtl.Soa
