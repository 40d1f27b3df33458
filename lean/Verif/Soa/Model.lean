import Verif.Base.Res
import Verif.Spec.Soa
/-!
# Model of `gtl::soa` (soa.hpp)

A `soa` with `m + 1` columns of types `T i` (it needs one for `size()`). A column that is being rearranged has cells
that may have been moved from; using such a cell is treated as undefined behaviour.
-/

namespace Gtl.Soa

open Gtl.Spec.Soa (Row Op)

variable {α : Type} {m : Nat} {T : Fin (m + 1) → Type}

/-- `storage_type data_` (soa.hpp:48, 210): one vector per field. -/
structure Soa (T : Fin (m + 1) → Type) where
  col : (i : Fin (m + 1)) → List (T i)

/-- `size()` (soa.hpp:66): the size of column 0. -/
def Soa.size (s : Soa T) : Nat := (s.col 0).length

/-- `std::stable_sort`, of the standard library: any function on lists. -/
structure Sorter where
  sort : {α : Type} → (α → α → Bool) → List α → List α

/-! ## `reorder` (soa.hpp:179-202) -/

/-- `v[i]`, in bounds. -/
def at? {α : Type} (l : List α) (i : Nat) : Res α := Res.ofOption l[i]?

/-- `T x(std::move(c[i]))`. -/
def takeCell (c : List (Option α)) (i : Nat) : Res (α × List (Option α)) :=
  match c[i]? with
  | some (some v) => .ok (v, c.set i none)
  | _ => .ub

/-- `c[i] = std::move(v)`. -/
def putCell (c : List (Option α)) (i : Nat) (v : α) : Res (List (Option α)) :=
  if i < c.length then .ok (c.set i (some v)) else .ub

/-- The `do ... while` loop (soa.hpp:190-199). `done` is modelled as a list of bits (`bit_vector` is modelled in
`Verif.Bits`). The first argument bounds the number of iterations. A failing `assert` counts as undefined. -/
def cycle (o : List Nat) (i : Nat) (ci : α) : Nat → List (Option α) → List Bool → Nat → Res (List (Option α) × List Bool)
  | 0, _, _, _ => .hang
  | f + 1, c, done, cur => do
    let d ← at? done cur
    Res.guardUb (!d)
    let done := done.set cur true
    let oc ← at? o cur
    if oc = i then do
      let c ← putCell c cur ci
      .ok (c, done)
    else do
      let (v, c) ← takeCell c oc
      let c ← putCell c cur v
      let cur := oc
      let oc ← at? o cur
      if oc ≠ cur then cycle o i ci f c done cur else .ok (c, done)

/-- The loop over `i` (soa.hpp:185-201), from `i` on, `k` more iterations. -/
def outer (o : List Nat) : Nat → Nat → List (Option α) → List Bool → Res (List (Option α) × List Bool)
  | 0, _, c, done => .ok (c, done)
  | k + 1, i, c, done => do
    let d ← at? done i
    if !d then do
      let (ci, c) ← takeCell c i
      let (c, done) ← cycle o i ci (o.length + 1) c done i
      outer o k (i + 1) c done
    else outer o k (i + 1) c done

/-- All cells must hold values in the end. -/
def unwrapAll : List (Option α) → Res (List α)
  | [] => .ok []
  | some v :: c => do
    let l ← unwrapAll c
    .ok (v :: l)
  | none :: _ => .ub

/-- `reorder(c, o, done)` (soa.hpp:179-202). `done` has been resized to the number of rows before (`sort_data::resize`,
144-147), and starts with `done.reset()`, which forms `&_s[0]` and so is undefined if there are no rows (bit_vector.hpp:318-322,
814-817; see `Bv.fill`). `Verif.Soa.Scratch` has the same function with the `bit_vector` itself. -/
def reorder (c : List α) (o : List Nat) : Res (List α) := do
  Res.guardUb (!o.isEmpty)
  let (c, _) ← outer o o.length 0 (c.map some) (List.replicate o.length false)
  unwrapAll c

/-! ## Operations -/

/-- Do something to each column in turn (`std::apply`, fold expressions). -/
def eachCol (s : Soa T) (f : (i : Fin (m + 1)) → List (T i) → Res (List (T i))) : Res (Soa T) :=
  let rec go : (k : Nat) → (h : k ≤ m + 1) → Soa T → Res (Soa T)
    | 0, _, s => .ok s
    | k + 1, h, s => do
      let s ← go k (by omega) s
      let i : Fin (m + 1) := ⟨k, by omega⟩
      let l ← f i (s.col i)
      .ok { col := fun j => if e : j = i then e ▸ l else s.col j }
  go (m + 1) (Nat.le_refl _) s

/-- `v.resize(n)` with default values. -/
def resizeVec (d : α) (n : Nat) (l : List α) : List α := l.take n ++ List.replicate (n - l.length) d

/-- `comp_wrapper` (soa.hpp:116): compare the entries at two indices. -/
def cmpAt (col : List α) (lt : α → α → Bool) (a b : Nat) : Bool :=
  match col[a]?, col[b]? with
  | some x, some y => lt x y
  | _, _ => false

/-- The operations: `insert` (soa.hpp:70-73, 156-159), element access for writing, `resize`, `reserve`, `clear` (93-103),
`sort_by_field` (105-121, 171-174, 204-208). The order of the indices is found by sorting them with a comparison that
looks the values up in the column. -/
def Soa.step (S : Sorter) (dflt : Row T) (s : Soa T) : Op T → Res (Soa T)
  | .insert r => eachCol s (fun i l => .ok (l ++ [r i]))
  | .assign j c v => do
    Res.guardUb (decide (j < (s.col c).length))
    .ok { col := fun i => if e : i = c then e ▸ (s.col c).set j v else s.col i }
  | .resize n => eachCol s (fun i l => .ok (resizeVec (dflt i) n l))
  | .reserve _ => .ok s
  | .clear => eachCol s (fun _ _ => .ok [])
  | .sort c lt =>
    let col := s.col c
    let o := S.sort (cmpAt col lt) (List.range s.size)
    eachCol s (fun _ l => reorder l o)

/-- `operator[](i)` (soa.hpp:75-81), `view` (83-91): the row of references, read. -/
def Soa.row (s : Soa T) (j : Nat) : Res ((i : Fin (m + 1)) → Option (T i)) :=
  let r := fun i => (s.col i)[j]?
  Res.ofOption (if ∀ i, (r i).isSome then some r else none)

/-- A history from the empty `soa`. -/
def run (S : Sorter) (dflt : Row T) (s : Soa T) : List (Op T) → Res (Soa T)
  | [] => .ok s
  | op :: ops => do
    let s ← s.step S dflt op
    run S dflt s ops

/-- A new `soa` (soa.hpp:46-68): all columns are empty. -/
def empty : Soa T := { col := fun _ => [] }

end Gtl.Soa
