import Verif.Base.Res
/-!
# Model of `cat`, `slice` and `map` (vec_utils.hpp)
-/

namespace Gtl.Slice

variable {α β : Type}

/-- `begin(v) + i`: an iterator is a position; positions outside `0 .. size` are undefined. -/
def iter (v : List α) (i : Int) : Res Int := if 0 ≤ i ∧ i ≤ v.length then .ok i else .ub

/-- `first >= 0 ? begin(v) + first : end(v) + (first + 1)` (vec_utils.hpp:51-53). -/
def position (v : List α) (i : Int) : Res Int := if i ≥ 0 then iter v i else iter v (v.length + (i + 1))

/-- `*it`. -/
def deref (v : List α) (i : Int) : Res α := if 0 ≤ i then Res.ofOption v[i.toNat]? else .ub

/-- The loop (vec_utils.hpp:57-58), `cnt` times. -/
def loop (v : List α) (stride : Int) : Nat → Int → List α → Res (List α)
  | 0, _, res => .ok res
  | cnt + 1, it, res => do
    let x ← deref v it
    let it ← iter v (it + stride)
    loop v stride cnt it (res ++ [x])

/-- `slice(v, first, last, stride)` (vec_utils.hpp:47-61). Division by zero is undefined; the quotient becomes a `size_t`, so
a negative one becomes huge. `max` is `max_size()` of the result; `none` is the `std::length_error` of `reserve` (55). -/
def slice (max : Nat) (v : List α) (first last stride : Int) : Res (Option (List α)) := do
  let f ← position v first
  let l ← position v last
  if l > f then do
    Res.guardUb (decide (stride ≠ 0))
    let cnt := ((l - f).tdiv stride) % 2 ^ 64
    if cnt.toNat > max then .ok none
    else do
      let res ← loop v stride cnt.toNat f []
      .ok (some res)
  else .ok (some [])

/-- `cat(vs...)` (vec_utils.hpp:36-42). -/
def cat (vs : List (List α)) : List α := vs.foldl (fun res v => res ++ v) []

/-- `map(f, v)` (vec_utils.hpp:66-78). -/
def map (f : α → β) (v : List α) : List β := v.foldl (fun res x => res ++ [f x]) []

end Gtl.Slice
