import Verif.Swiss.HashThrow
import Verif.Spec.Functors
/-!
# Hash containers that hold different hash function objects

`settings_` (phmap.hpp:2996-2999) holds the hash function object of the container. In `Verif.Swiss.Table` all containers
have the same one; here each has its own, in some state. Simplification: the key comparison object has no state.
-/

namespace Gtl.Swiss

open Gtl.Spec (Op Resp FOp FResp put)

/-- The class of the hash function objects: what an object does when it is called with a key (`none`: it throws, as an empty
`std::function` does), and the state it is in after it was moved from. -/
structure Fns (S κ : Type) where
  call : S → Option (κ → Nat)
  moved : S → S

/-- A container: the hash function object (phmap.hpp:2981) and the other members. -/
structure Box (S α : Type) where
  fn : S
  tbl : Tbl α

namespace Box
variable {S α κ : Type} (C : Cfg α κ) (F : Fns S κ)

/-- The template parameters with the hash function of an object in state `s`. Where it cannot be called no hash function
matters. -/
def cfg (s : S) : Cfg α κ := { C with hash := (F.call s).getD (fun _ => 0) }

/-- `raw_hash_set()` and `raw_hash_set(bucket_cnt, hashfn, ...)` (phmap.hpp:1703-1720). -/
def make (s : S) (n : Nat) : Box S α := { fn := s, tbl := Tbl.withBuckets C n }

/-- One call on a container (the lines are with `Tbl.step` and `Tbl.stepH`): with a function object that throws, the first call
of it ends the call. -/
def step (b : Box S α) (op : Op α κ) : Res (Box S α × FResp S α) :=
  match F.call b.fn with
  | some _ => do
    let (t, r) ← b.tbl.step (cfg C F b.fn) op
    .ok ({ b with tbl := t }, .got r)
  | none => do
    match ← b.tbl.stepH (cfg C F b.fn) op 0 with
    | .done s _ => .ok ({ b with tbl := s.1 }, .got s.2)
    | .threw t _ => .ok ({ b with tbl := t }, .threw)

/-- Copy constructor (phmap.hpp:1817-1830): the function object is copied (1818), and called for every element (1824). `none`: it
throws. -/
def copy (that : Box S α) : Res (Option (Box S α)) := do
  let vs ← that.tbl.iterate C
  if (F.call that.fn).isSome || vs.isEmpty then do
    let t ← that.tbl.copy (cfg C F that.fn)
    .ok (some { fn := that.fn, tbl := t })
  else do
    let _ ← that.tbl.copyHashThrow (cfg C F that.fn) 0
    .ok none

/-- Move constructor (phmap.hpp:1832-1847): `settings_(std::move(that.settings_))` moves the function object as well. Returns
`(this, that)`. -/
def move (that : Box S α) : Box S α × Box S α :=
  let (t, u) := Tbl.move that.tbl
  ({ fn := that.fn, tbl := t }, { fn := F.moved that.fn, tbl := u })

/-- `swap` (phmap.hpp:2310-2328) with `swap(hash_ref(), that.hash_ref())` (2321). -/
def swap (a b : Box S α) : Box S α × Box S α :=
  let (t, u) := Tbl.swap a.tbl b.tbl
  ({ fn := b.fn, tbl := t }, { fn := a.fn, tbl := u })

/-- Copy assignment (phmap.hpp:1871-1876): `tmp(that); swap(tmp);`, then the destructor of `tmp`. -/
def copyAssign (a that : Box S α) : Res (Option (Box S α)) := do
  match ← copy C F that with
  | none => .ok none
  | some tmp => do
    let (a, tmp) := swap a tmp
    let _ ← tmp.tbl.destroySlots
    .ok (some a)

/-- `move_assign` (phmap.hpp:2825-2829): `tmp(std::move(that)); swap(tmp);`, then the destructor of `tmp`. Returns
`(this, that)`. -/
def moveAssign (a that : Box S α) : Res (Box S α × Box S α) := do
  let (tmp, that) := move F that
  let (a, tmp) := swap a tmp
  let _ ← tmp.tbl.destroySlots
  .ok (a, that)

/-- The same with `that` the object itself. -/
def moveSelf (a : Box S α) : Res (Box S α) := do
  let (tmp, a) := move F a
  let (a, tmp) := swap a tmp
  let _ ← tmp.tbl.destroySlots
  .ok a

/-- `merge(src)` (phmap.hpp:2283-2291): the hash function is that of the destination; the source is only iterated over and its
control bytes are changed (`erase_meta_only`). If the function throws, it does so for the first element, before anything is moved
(2575). -/
def merge (dst src : Box S α) : Res (Option (Box S α × Box S α)) :=
  match F.call dst.fn with
  | some _ => do
    let (t, u) ← Tbl.merge (cfg C F dst.fn) dst.tbl src.tbl
    .ok (some ({ dst with tbl := t }, { src with tbl := u }))
  | none => do
    let p ← src.tbl.begin_ C
    .ok (if p = src.tbl.capacity then some (dst, src) else none)

/-- `operator==` (phmap.hpp:2464-2475): the container with more slots looks for the elements of the other one. -/
def equal [BEq α] (a b : Box S α) : Res (Option Bool) :=
  if a.tbl.size ≠ b.tbl.size then .ok (some false)
  else
    let (outer, inner) := if a.tbl.capacity > b.tbl.capacity then (b, a) else (a, b)
    do
      let vs ← outer.tbl.iterate C
      match F.call inner.fn with
      | some _ => do
        let r ← Tbl.allIn (cfg C F inner.fn) (· == ·) inner.tbl vs
        .ok (some r)
      | none => .ok (if vs.isEmpty then some true else none)

/-- One call on a family of containers. -/
def wstep [BEq α] (w : Nat → Box S α) : FOp S (Op α κ) → Res ((Nat → Box S α) × FResp S α)
  | .on i op => do
    let (b, r) ← (w i).step C F op
    .ok (put w i b, r)
  | .create i s n => do
    let (b, _) ← moveAssign F (w i) (make C s n)
    .ok (put w i b, .got .unit)
  | .copy i j => do
    match ← copyAssign C F (w i) (w j) with
    | none => .ok (w, .threw)
    | some b => .ok (put w i b, .got .unit)
  | .take i j => do
    let (tmp, c) := move F (w j)
    let w := put w j c
    let (b, _) ← moveAssign F (w i) tmp
    .ok (put w i b, .got .unit)
  | .move i j =>
    if i = j then do
      let b ← moveSelf F (w i)
      .ok (put w i b, .got .unit)
    else do
      let (b, c) ← moveAssign F (w i) (w j)
      .ok (put (put w j c) i b, .got .unit)
  | .swap i j =>
    let (b, c) := swap (w i) (w j)
    .ok (put (put w i b) j c, .got .unit)
  | .merge i j => do
    match ← merge C F (w i) (w j) with
    | none => .ok (w, .threw)
    | some (b, c) => .ok (put (put w i b) j c, .got .unit)
  | .equal i j => do
    match ← equal C F (w i) (w j) with
    | none => .ok (w, .threw)
    | some r => .ok (w, .got (.bool r))
  | .fn i => .ok (w, .fn (w i).fn)

/-- A history. -/
def wrun [BEq α] (w : Nat → Box S α) : List (FOp S (Op α κ)) → Res ((Nat → Box S α) × List (FResp S α))
  | [] => .ok (w, [])
  | op :: ops => do
    let (w, r) ← wstep C F w op
    let (w, rs) ← wrun w ops
    .ok (w, r :: rs)

end Box
end Gtl.Swiss
