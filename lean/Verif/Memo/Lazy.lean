import Verif.Base.Res
import Verif.Spec.Lazy
/-!
# Model of `lazy_list` (memoize.hpp:268-318)

Indexing returns a reference (277-281). If the function returns a value, the reference is bound to a temporary that dies
when `operator[]` returns, and reading it is undefined behaviour. If the function returns a reference, it is assumed to
refer to an object that stays and keeps its value. The function has no other effects. The parts in `#else` and `#if 0`
(283-289, 296-314) are not modelled.
-/

namespace Gtl.Memo.Lazy

open Gtl.Spec.Lazy (Body)

/-- `_first` and `_next` (memoize.hpp:316-317); `byRef` tells whether `_next` returns a reference. -/
structure LazyList (T : Type) where
  first : T
  next : Nat → Body T
  byRef : Bool

/-- What the reference returned by `operator[]` refers to (memoize.hpp:277-281): `_first`, an object of the function with
this value, or a temporary that is gone. -/
inductive Ref (T : Type) where
  | first
  | kept (v : T)
  | gone

variable {T : Type}

/-- Use the reference returned by `operator[]` (memoize.hpp:277). -/
def LazyList.read (l : LazyList T) : Ref T → Res T
  | .first => .ok l.first
  | .kept v => .ok v
  | .gone => .ub

/-- Run the function; `q` is `(*p)[j]`, `n` counts the calls of the function (memoize.hpp:280). -/
def evalWith (q : Nat → Res (T × Nat)) : Body T → Nat → Res (T × Nat)
  | .ret v, n => .ok (v, n)
  | .ask j k, n => do
    let (w, m) ← q j
    evalWith q (k w) (n + m)

/-- `operator[]` (memoize.hpp:277-281), and the number of calls of `_next` it makes. The first argument bounds the depth of
the recursion. -/
def LazyList.index (l : LazyList T) : Nat → Nat → Res (Ref T × Nat)
  | 0, _ => .hang
  | f + 1, idx =>
    if idx = 0 then .ok (.first, 0)
    else do
      let (v, n) ← evalWith (fun j => do
        let (r, n) ← l.index f j
        let w ← l.read r
        .ok (w, n)) (l.next idx) 1
      .ok (if l.byRef then .kept v else .gone, n)

/-- `T x = l[idx]` (memoize.hpp:277-281). -/
def LazyList.get (l : LazyList T) (f idx : Nat) : Res (T × Nat) := do
  let (r, n) ← l.index f idx
  let w ← l.read r
  .ok (w, n)

end Gtl.Memo.Lazy
