import Verif.Base.Res
/-!
# Model of `binary_search` and `middle` (adv_utils.hpp)

Integers are mathematical integers with range checks where C++ has undefined behaviour; doubles are given by their bits.
-/

namespace Gtl.Search

variable {T : Type}

/-- `binary_search` (adv_utils.hpp:52-64); the first argument bounds the depth of the recursion. The predicate is assumed to be a
function of its argument; a failing `assert` counts as undefined. -/
def binarySearch (mid : T → T → Res (Option T)) (pred : T → Bool) : Nat → T → T → Res (T × T)
  | 0, _, _ => .hang
  | f + 1, l, r => do
    Res.guardUb (!pred l && pred r)
    let m ← mid l r
    match m with
    | none => .ok (l, r)
    | some m => if pred m then binarySearch mid pred f l m else binarySearch mid pred f m r

/-- An integral type: number of bits, signedness. -/
structure IntTy where
  bits : Nat
  signed : Bool

/-- The smallest value of the type. -/
def IntTy.min (t : IntTy) : Int := if t.signed then -2 ^ (t.bits - 1) else 0
/-- The largest value of the type. -/
def IntTy.max (t : IntTy) : Int := if t.signed then 2 ^ (t.bits - 1) - 1 else 2 ^ t.bits - 1

/-- `r - l`: types smaller than `int` (32 bits) are promoted to `int`; overflow of signed integers is undefined; unsigned
integers wrap. -/
def IntTy.sub (t : IntTy) (r l : Int) : Res Int :=
  if t.bits < 32 then .ok (r - l)
  else if t.signed then do
    Res.guardUb (decide (t.min ≤ r - l ∧ r - l ≤ t.max))
    .ok (r - l)
  else .ok ((r - l) % 2 ^ t.bits)

/-- `std::midpoint` of integers (C++20): half the sum, rounded towards the first argument. -/
def midpoint (l r : Int) : Int := if l ≤ r then l + (r - l) / 2 else l - (l - r) / 2

/-- `middle<T>` of integers (adv_utils.hpp:78-84). -/
def middleInt (t : IntTy) (l r : Int) : Res (Option Int) := do
  let d ← t.sub r l
  if d > 1 then .ok (some (midpoint l r)) else .ok none

/-- `middle<double>` (adv_utils.hpp:89-100): the middle of the representations. A double is its bits, `0 .. 2^64-1`. -/
def middleDouble (l r : Int) : Res (Option Int) := middleInt { bits := 64, signed := false } l r

end Gtl.Search
