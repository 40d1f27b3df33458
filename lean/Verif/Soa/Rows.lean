import Verif.Props.SoaDefs
/-!
# Model of rows of a `soa` as references (soa.hpp:75-91, 161-169)

`operator[]` and `view` return tuples of references into the columns. A column is a `std::vector`: it has a block of memory
with room for some elements, and moves to another block when it needs more room. References into a block that was left are
gone, using one is undefined. So is using one beyond the end of the column. References to elements that were destroyed by
`clear` or `resize` and whose place is used again are taken to refer to the new element.
-/

namespace Gtl.Soa

open Gtl.Spec.Soa (Row Op)

variable {m : Nat} {T : Fin (m + 1) → Type}

/-- How `std::vector` enlarges its block: with room for `cap` elements, when there must be room for `need`. Any function that
gives enough. -/
structure Growth where
  next : Nat → Nat → Nat
  enough : ∀ cap need, need ≤ next cap need

/-- A table (`data_`, soa.hpp:210), and for each column the room in its block, and the number of the block. -/
structure Tab (T : Fin (m + 1) → Type) where
  s : Soa T
  room : Fin (m + 1) → Nat
  block : Fin (m + 1) → Nat

/-- The room that `push_back` (soa.hpp:158), `resize` (97-99) and `reserve` (101-103) need in a column. The other
operations stay in the block: `clear` (93-95), assignments, and sorting, which moves elements (179-202). -/
def need (len : Nat) : Op T → Nat
  | .insert _ => len + 1
  | .resize n => n
  | .reserve n => n
  | _ => 0

/-- One operation, with what the columns do with their blocks (soa.hpp:71-121). -/
def Tab.step (S : Sorter) (G : Growth) (dflt : Row T) (t : Tab T) (op : Op T) : Res (Tab T) := do
  let s ← t.s.step S dflt op
  .ok { s := s
        room := fun c => let n := need (t.s.col c).length op
          if n ≤ t.room c then t.room c else G.next (t.room c) n
        block := fun c => if need (t.s.col c).length op ≤ t.room c then t.block c else t.block c + 1 }

/-- A sequence of operations (soa.hpp:71-121). -/
def trun (S : Sorter) (G : Growth) (dflt : Row T) (t : Tab T) : List (Op T) → Res (Tab T)
  | [] => .ok t
  | op :: ops => do
    let t ← t.step S G dflt op
    trun S G dflt t ops

/-- The references in a row: an index, and the blocks they point into (soa.hpp:76, 80, 163, 168). -/
structure RowRef (m : Nat) where
  idx : Nat
  block : Fin (m + 1) → Nat

/-- `operator[](idx)` (soa.hpp:75-81) and `view<I...>(idx)` (83-91, 161-169), of which the latter has only the references of
the columns `I`. -/
def Tab.rowRef (t : Tab T) (idx : Nat) : RowRef m := { idx := idx, block := t.block }

/-- Read through the reference into column `c` (soa.hpp:163, 168). -/
def Tab.read (t : Tab T) (r : RowRef m) (c : Fin (m + 1)) : Res (T c) :=
  if r.block c = t.block c then Res.ofOption (t.s.col c)[r.idx]? else .ub

/-- Write through the reference into column `c` (soa.hpp:80, 168). -/
def Tab.write (t : Tab T) (r : RowRef m) (c : Fin (m + 1)) (v : T c) : Res (Tab T) :=
  if r.block c = t.block c ∧ r.idx < (t.s.col c).length then
    .ok { t with s := { col := fun i => if e : i = c then e ▸ (t.s.col c).set r.idx v else t.s.col i } }
  else .ub

/-- `view<I...>(idx) = std::tuple(...)`, also with a column named twice: `std::tuple` assigns one after another
(soa.hpp:88-91, 166-169). -/
def Tab.writeView (t : Tab T) (r : RowRef m) : List (Σ c, T c) → Res (Tab T)
  | [] => .ok t
  | ⟨c, v⟩ :: l => do
    let t ← t.write r c v
    t.writeView r l

/-- `soa[i] = soa[j]`: the assignment of a tuple of references reads each one just before it writes to the other
(soa.hpp:79-81). -/
def Tab.assignRow (t : Tab T) (dst src : RowRef m) : List (Fin (m + 1)) → Res (Tab T)
  | [] => .ok t
  | c :: cs => do
    let v ← t.read src c
    let t ← t.write dst c v
    t.assignRow dst src cs

/-- A new table (soa.hpp:47): no blocks yet. -/
def Tab.empty : Tab T := { s := { col := fun _ => [] }, room := fun _ => 0, block := fun _ => 0 }

end Gtl.Soa
