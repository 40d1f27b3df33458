import Verif.Swiss.Table
import Verif.Spec.Assoc
/-!
# The public operations of the hash containers as one transition function

`step` dispatches an operation of `Verif.Spec.Assoc` to the modelled C++ member functions and reads the
element the returned iterator refers to.
-/

namespace Gtl.Swiss

open Gtl.Spec (Op WOp Resp put)

namespace Tbl
variable {α κ : Type} (C : Cfg α κ)

/-- Assignment through a reference to the element in slot `i` (`Policy::value(&*it) = v`, phmap.hpp:3136, 3149). -/
def assignAt (t : Tbl α) (i : Nat) (f : α → α) : Res (Tbl α) := do
  let a ← t.readSlot i
  .ok { t with slots := t.slots.set i (some (f a)) }

/-- `insert_or_assign_impl` (phmap.hpp:3140-3151). -/
def insertOrAssign (t : Tbl α) (a : α) (f : α → α) : Res (Tbl α × Nat × Bool) := do
  let hashval := C.hash (C.key a)
  match ← t.findHash C (C.key a) hashval with
  | none => do
    let (t, off) ← t.prepareInsert C hashval
    let t ← t.constructSlot off a
    let t ← t.setCtrl C.G.W off (H2 hashval)
    .ok (t, off, true)
  | some off => do
    let t ← t.assignAt off f
    .ok (t, off, false)

/-- `operator[]` (phmap.hpp:3129-3137): `try_emplace(key)` and the reference to the mapped value. Returns the
position the reference points to. -/
def subscript (t : Tbl α) (a : α) : Res (Tbl α × Nat) := do
  let (t, off, _) ← t.emplace C a
  .ok (t, off)

/-- `at(key)` (phmap.hpp:3113-3127): `none` is the `std::out_of_range` exception. -/
def at_ (t : Tbl α) (k : κ) : Res (Option α) := do
  match ← t.find C k with
  | none => .ok none
  | some off => do
    let a ← t.readSlot off
    .ok (some a)

/-- Copy assignment (phmap.hpp:1871-1876): `tmp(that); swap(tmp);` and the destructor of `tmp`. -/
def copyAssign (t that : Tbl α) : Res (Tbl α) := do
  let tmp ← that.copy C
  let (t, tmp) := swap t tmp
  let _ ← tmp.destroySlots
  .ok t

/-- `move_assign` (phmap.hpp:2825-2829): `tmp(std::move(that)); swap(tmp);` and the destructor of `tmp`.
Returns `(this, that)`. -/
def moveAssign (t that : Tbl α) : Res (Tbl α × Tbl α) := do
  let (tmp, that) := move that
  let (t, tmp) := swap t tmp
  let _ ← tmp.destroySlots
  .ok (t, that)

/-- One operation on one container. -/
def step (t : Tbl α) : Op α κ → Res (Tbl α × Resp α)
  | .insert a => do
    let (t, off, ins) ← t.emplace C a
    let b ← t.readSlot off
    .ok (t, .ins b ins)
  | .insertOrAssign a f => do
    let (t, off, ins) ← t.insertOrAssign C a f
    let b ← t.readSlot off
    .ok (t, .ins b ins)
  | .subscript a f => do
    let (t, off) ← t.subscript C a
    let b ← t.readSlot off
    let t ← t.assignAt off f
    .ok (t, .elem (some b))
  | .at k => do
    let o ← t.at_ C k
    .ok (t, .elem o)
  | .find k => do
    match ← t.find C k with
    | none => .ok (t, .elem none)
    | some off => do
      let a ← t.readSlot off
      .ok (t, .elem (some a))
  | .contains k => do
    let b ← t.contains C k
    .ok (t, .bool b)
  | .count k => do
    let n ← t.count C k
    .ok (t, .nat n)
  | .erase k => do
    let (t, n) ← t.erase C k
    .ok (t, .nat n)
  | .eraseIf p => do
    let (t, n) ← t.eraseIf C p
    .ok (t, .nat n)
  | .extract k => do
    let (t, o) ← t.extract C k
    .ok (t, .elem o)
  | .insertNode n => do
    let (t, off, ins, left) ← t.insertNode C n
    match off with
    | none => .ok (t, .node none ins left)
    | some off => do
      let a ← t.readSlot off
      .ok (t, .node (some a) ins left)
  | .toggle a => do
    let t ← t.emplaceSingle C (C.key a) (C.hash (C.key a)) (fun _ => a)
    .ok (t, .unit)
  | .insertRange vs => do
    let t ← t.insertRange C vs
    .ok (t, .unit)
  | .size => .ok (t, .nat t.size)
  | .clear => do
    let t ← t.clear C
    .ok (t, .unit)
  | .reserve n => do
    let t ← t.reserve C n
    .ok (t, .unit)
  | .rehash n => do
    let t ← t.rehash C n
    .ok (t, .unit)

/-- A history on one container, collecting the answers. -/
def run (t : Tbl α) : List (Op α κ) → Res (Tbl α × List (Resp α))
  | [] => .ok (t, [])
  | op :: ops => do
    let (t, r) ← t.step C op
    let (t, rs) ← run t ops
    .ok (t, r :: rs)

/-- One operation on a family of containers. -/
def wstep [BEq α] (w : Nat → Tbl α) : WOp α κ → Res ((Nat → Tbl α) × Resp α)
  | .on i op => do
    let (t, r) ← (w i).step C op
    .ok (put w i t, r)
  | .create i n => do
    let (t, _) ← moveAssign (w i) (withBuckets C n)
    .ok (put w i t, .unit)
  | .copy i j => do
    let t ← copyAssign C (w i) (w j)
    .ok (put w i t, .unit)
  | .move i j =>
    if i = j then do
      -- `that` is `*this`: after `tmp(std::move(that))` both are empty, the swap restores the contents
      let (tmp, t) := move (w i)
      let (t, tmp) := swap t tmp
      let _ ← tmp.destroySlots
      .ok (put w i t, .unit)
    else do
      let (t, u) ← moveAssign (w i) (w j)
      .ok (put (put w j u) i t, .unit)
  | .swap i j =>
    let (t, u) := swap (w i) (w j)
    .ok (put (put w i t) j u, .unit)
  | .merge i j => do
    let (t, u) ← merge C (w i) (w j)
    .ok (put (put w i t) j u, .unit)
  | .equal i j => do
    let b ← beqTbl C (· == ·) (w i) (w j)
    .ok (w, .bool b)

/-- A whole history, collecting the answers. -/
def wrun [BEq α] (w : Nat → Tbl α) : List (WOp α κ) → Res ((Nat → Tbl α) × List (Resp α))
  | [] => .ok (w, [])
  | op :: ops => do
    let (w, r) ← wstep C w op
    let (w, rs) ← wrun w ops
    .ok (w, r :: rs)

end Tbl
end Gtl.Swiss
