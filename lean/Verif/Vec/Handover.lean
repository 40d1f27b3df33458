import Verif.Vec.View
import Verif.Spec.Handover
/-
`relinquish`, `attach`, the constructor from a buffer, and `compactResize`: programs that take the buffer of a vector
away from it and give buffers to vectors.
-/
namespace Gtl.Vec
open M Gtl.Spec.Seq Gtl.Spec.Handover

variable {α : Type}

/-- The world, and the names that are not vectors but buffers the user holds: `vecs h` of such a name are the pointer
`relinquish` has returned and what `size()` and `capacity()` were before. Simplification: vectors and held buffers share
the names. -/
structure Hold (α : Type) where
  w : World α
  loose : Nat → Bool

/-- The loose names after `h` has become a buffer the user holds, or has stopped being one. -/
def Hold.mark (x : Hold α) (h : Nat) (b : Bool) : Nat → Bool := fun j => if j = h then b else x.loose j

/-- The outcome of a call of the vector. -/
def Hold.lift (x : Hold α) : Out (World α) (Ans α) → Out (Hold α) (Ans α)
  | .ok a w => .ok a { x with w := w }
  | .thrown e w => .thrown e { x with w := w }
  | .ub => .ub

/-- `h = relinquish(v_i)` (vector.hpp 1617-1622): the pointers become null. -/
def Hold.relinquish (x : Hold α) (i h : Nat) : Out (Hold α) (Ans α) :=
  match x.w.vecs i, x.w.vecs h with
  | some v, none => .ok .unit
      ⟨{ x.w with vecs := fun k => if k = i then some ⟨none, 0, 0⟩ else if k = h then some v else x.w.vecs k }, x.mark h true⟩
  | _, _ => .ub

/-- `attach(v_i, h, n, cap)` (vector.hpp 1624-1630). The assertion that the vector has no buffer is left out, as
it is in a release build: the pointers are overwritten. -/
def Hold.attach (x : Hold α) (i h n cap : Nat) : Out (Hold α) (Ans α) :=
  match x.w.vecs i, x.w.vecs h with
  | some _, some v => .ok .unit
      ⟨{ x.w with vecs := fun k => if k = h then none else if k = i then some ⟨v.b, n, cap⟩ else x.w.vecs k }, x.mark h false⟩
  | _, _ => .ub

/-- `vector(unique_ptr<T>(h), n, cap)` (vector.hpp 721-724, 199-203): `release()` empties the user's pointer. -/
def Hold.adopt (x : Hold α) (i h n cap : Nat) : Out (Hold α) (Ans α) :=
  match x.w.vecs i, x.w.vecs h with
  | none, some v => .ok .unit
      ⟨{ x.w with vecs := fun k => if k = h then none else if k = i then some ⟨v.b, n, cap⟩ else x.w.vecs k }, x.mark h false⟩
  | _, _ => .ub

/-- The user frees a buffer they hold: destroys the elements and gives the memory back to the allocator (vector.hpp
1600-1602 asks for this); these are the steps of the destructor (173-185). -/
def Hold.free (t : Traits α) (x : Hold α) (h : Nat) : Out (Hold α) (Ans α) :=
  match x.lift (x.w.destruct t h) with
  | .ok a y => .ok a ⟨y.w, y.mark h false⟩
  | r => r

/-- `compactResize(&v_i, n)` (vector.hpp 1588-1592). -/
def Hold.compact (t : Traits α) (x : Hold α) (i n : Nat) : Out (Hold α) (Ans α) :=
  match step t x.w (.resize i n) with
  | .ok _ w => x.lift (step t w (.shrinkToFit i))
  | .thrown e w => .thrown e { x with w := w }
  | .ub => .ub

/-- One call. A held buffer is not a vector, and a vector not a held buffer. -/
def hstep (t : Traits α) (x : Hold α) : HOp α → Out (Hold α) (Ans α)
  | .base op => if op.names.any x.loose then .ub else x.lift (step t x.w op)
  | .relinquish i h => if x.loose i || x.loose h then .ub else x.relinquish i h
  | .attach i h n cap => if x.loose i || !x.loose h then .ub else x.attach i h n cap
  | .adopt i h n cap => if x.loose i || !x.loose h then .ub else x.adopt i h n cap
  | .free h => if x.loose h then x.free t h else .ub
  | .compact i n => if x.loose i then .ub else x.compact t i n

end Gtl.Vec
