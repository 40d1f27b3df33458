import Verif.Swiss.World
/-!
# Hash containers with a user supplied allocator

`EmptyGroup<std_alloc_t>()` (phmap.hpp:822-834) is a static block of control bytes only when the allocator is the
default one.  For every other allocator it is a null pointer, and five functions test the pointer before they
use it.  This file models that second version of the table: the null pointer is the empty list of control bytes
(`nil`), from which nothing can be read - `load` and `ctrlAt` are `ub` there.  Functions of `Verif.Swiss.Table`
which never touch the control bytes of a table without capacity (`resize`, `clear`, `erase_meta_only`, ...) are
used as they are, and so are `find_first_non_full` and `set_ctrl`, which test nothing.

`growth_left`, the slots and the size are as in the default version.
-/

namespace Gtl.Swiss

open Gtl.Spec (Op WOp Resp put)

namespace Tbl
variable {α κ : Type}

/-- Default constructor with `ctrl_ = nullptr` (phmap.hpp:2992, 822-834). -/
def nil : Tbl α := { ctrl := [], slots := [], size := 0, capacity := 0, growthLeft := 0 }

/-- `!ctrl_`. -/
def isNull (t : Tbl α) : Bool := t.ctrl.isEmpty

section
variable (C : Cfg α κ)

/-- `find_impl` (phmap.hpp:2491-2510) and `_find_key` (2837-2857) with their test of the pointer. -/
def findHashN (t : Tbl α) (k : κ) (hashval : Nat) : Res (Option Nat) :=
  if t.isNull then .ok none else t.findHash C k hashval

/-- `find(key)` (phmap.hpp:2413-2416). -/
def findN (t : Tbl α) (k : κ) : Res (Option Nat) := t.findHashN C k (C.hash k)

/-- `contains(key)` (phmap.hpp:2426-2429). -/
def containsN (t : Tbl α) (k : κ) : Res Bool := do
  let r ← t.findN C k
  .ok r.isSome

/-- `count(key)` (phmap.hpp:2367-2370). -/
def countN (t : Tbl α) (k : κ) : Res Nat := do
  let r ← t.findN C k
  .ok (if r.isSome then 1 else 0)

/-- `has_element(elem)` (phmap.hpp:2771-2795) with its test of the pointer. -/
def hasElementN (veq : α → α → Bool) (t : Tbl α) (elem : α) : Res Bool :=
  if t.isNull then .ok false else t.hasElement C veq elem

/-- `prepare_insert` (phmap.hpp:2867-2881) with its test of the pointer (2868-2872). -/
def prepareInsertN (t : Tbl α) (hashval : Nat) : Res (Tbl α × Nat) := do
  let t ← (if t.isNull then t.rehashAndGrow C else Res.ok t)
  t.prepareInsert C hashval

/-- `destroy_slots` (phmap.hpp:2646-2668): the last lines put the null pointer back. -/
def destroySlotsN (t : Tbl α) : Res (Tbl α) :=
  if t.capacity = 0 then .ok t
  else do
    let t ← t.destroyFull
    if t.slots.all Option.isNone then .ok nil else .ub

/-- Explicit constructor with a bucket count (phmap.hpp:1708-1720). -/
def withBucketsN (n : Nat) : Tbl α :=
  if n = 0 then nil else initializeSlots C nil (normalizeCapacity n)

/-- `emplace_decomposable` and its relatives (phmap.hpp:2543-2552, 2187-2196, 2571-2588, 3154-3167). -/
def emplaceHashN (t : Tbl α) (k : κ) (hashval : Nat) (mk : Unit → α) : Res (Tbl α × Nat × Bool) := do
  match ← t.findHashN C k hashval with
  | some off => .ok (t, off, false)
  | none => do
    let (t, off) ← t.prepareInsertN C hashval
    let t ← t.constructSlot off (mk ())
    let t ← t.setCtrl C.G.W off (H2 hashval)
    .ok (t, off, true)

/-- `emplace(args...)` / `insert(value)` (phmap.hpp:1941-1985, 2068-2071). -/
def emplaceN (t : Tbl α) (a : α) : Res (Tbl α × Nat × Bool) :=
  t.emplaceHashN C (C.key a) (C.hash (C.key a)) (fun _ => a)

/-- `erase(key)` (phmap.hpp:2230-2237). -/
def eraseN (t : Tbl α) (k : κ) : Res (Tbl α × Nat) := do
  match ← t.findN C k with
  | none => .ok (t, 0)
  | some off => do
    let t ← t.eraseAt C off
    .ok (t, 1)

/-- `extract(key)` (phmap.hpp:2304-2308). -/
def extractN (t : Tbl α) (k : κ) : Res (Tbl α × Option α) := do
  match ← t.findN C k with
  | none => .ok (t, none)
  | some off => do
    let (t, a) ← t.extractAt C off
    .ok (t, some a)

/-- `insert(node_type&&)` (phmap.hpp:2027-2039). -/
def insertNodeN (t : Tbl α) (node : Option α) : Res (Tbl α × Option Nat × Bool × Option α) :=
  match node with
  | none => .ok (t, none, false, none)
  | some a => do
    let (t, off, ins) ← t.emplaceHashN C (C.key a) (C.hash (C.key a)) (fun _ => a)
    .ok (t, some off, ins, if ins then none else some a)

/-- `emplace_single_with_hash` (phmap.hpp:2210-2219). -/
def emplaceSingleN (t : Tbl α) (k : κ) (hashval : Nat) (mk : Unit → α) : Res (Tbl α) := do
  match ← t.findHashN C k hashval with
  | some off => t.eraseAt C off
  | none => do
    let (t, off) ← t.prepareInsertN C hashval
    let t ← t.constructSlot off (mk ())
    t.setCtrl C.G.W off (H2 hashval)

/-- `insert_or_assign_impl` (phmap.hpp:3140-3151). -/
def insertOrAssignN (t : Tbl α) (a : α) (f : α → α) : Res (Tbl α × Nat × Bool) := do
  let hashval := C.hash (C.key a)
  match ← t.findHashN C (C.key a) hashval with
  | none => do
    let (t, off) ← t.prepareInsertN C hashval
    let t ← t.constructSlot off a
    let t ← t.setCtrl C.G.W off (H2 hashval)
    .ok (t, off, true)
  | some off => do
    let t ← t.assignAt off f
    .ok (t, off, false)

/-- `operator[]` (phmap.hpp:3129-3137). -/
def subscriptN (t : Tbl α) (a : α) : Res (Tbl α × Nat) := do
  let (t, off, _) ← t.emplaceN C a
  .ok (t, off)

/-- `at(key)` (phmap.hpp:3113-3127). -/
def atN (t : Tbl α) (k : κ) : Res (Option α) := do
  match ← t.findN C k with
  | none => .ok none
  | some off => do
    let a ← t.readSlot off
    .ok (some a)

/-- `rehash(n)` (phmap.hpp:2338-2353). -/
def rehashN (t : Tbl α) (n : Nat) : Res (Tbl α) :=
  if n = 0 ∧ t.capacity = 0 then .ok t
  else if n = 0 ∧ t.size = 0 then t.destroySlotsN
  else
    let m := normalizeCapacity (max n t.size)
    if n = 0 ∨ m > t.capacity then t.resize C m else .ok t

/-- `reserve(n)` (phmap.hpp:2355). -/
def reserveN (t : Tbl α) (n : Nat) : Res (Tbl α) := t.rehashN C (growthToLowerboundCapacity C.G.W n)

/-- `skip_empty_or_deleted` (phmap.hpp:1640-1657) with its test of the pointer.  The pointer of the iterator is
`ctrl_ + p`; on a table without control bytes only `p = 0` (`begin()`, which is `end()`) gives a null pointer,
and stepping past that is reading through a pointer that is neither null nor valid. -/
def skipN (t : Tbl α) (p : Nat) : Res Nat :=
  if t.isNull ∧ p = 0 then .ok p else t.skip C t.fuel p

/-- `begin()` (phmap.hpp:1888-1892). -/
def beginN (t : Tbl α) : Res Nat := t.skipN C 0

/-- `operator++` (phmap.hpp:1596-1601). -/
def nextN (t : Tbl α) (p : Nat) : Res Nat := t.skipN C (p + 1)

/-- The loop `for (it = b; it != end(); ++it) out.push_back(*it)`. -/
def collectN (t : Tbl α) : Nat → Nat → Res (List α)
  | 0, _ => .hang
  | n + 1, p =>
    if p = t.capacity then .ok []
    else do
      let a ← t.readSlot p
      let p' ← t.nextN C p
      let r ← collectN t n p'
      .ok (a :: r)

/-- All elements in iteration order. -/
def iterateN (t : Tbl α) : Res (List α) := do
  let b ← t.beginN C
  t.collectN C t.fuel b

/-- `priv::erase_if` (phmap.hpp:5597-5608). -/
def eraseIfLoopN (pred : α → Bool) : Nat → Tbl α → Nat → Res (Tbl α)
  | 0, _, _ => .hang
  | n + 1, t, p =>
    if p = t.capacity then .ok t
    else do
      let a ← t.readSlot p
      if pred a then do
        let nxt ← t.nextN C p
        let t ← t.eraseAt C p
        eraseIfLoopN pred n t nxt
      else do
        let nxt ← t.nextN C p
        eraseIfLoopN pred n t nxt

/-- `erase_if(c, pred)` (phmap.hpp:5597-5608). -/
def eraseIfN (t : Tbl α) (pred : α → Bool) : Res (Tbl α × Nat) := do
  let b ← t.beginN C
  let t' ← eraseIfLoopN C pred t.fuel t b
  .ok (t', t.size - t'.size)

/-- The body of the loop of the copy constructor (phmap.hpp:1822-1827). -/
def copyStep (t : Tbl α) (v : α) : Res (Tbl α) := do
  let hashval := C.hash (C.key v)
  let target ← t.findFirstNonFull C hashval
  let t ← t.setCtrl C.G.W target (H2 hashval)
  t.constructSlot target v

/-- Copy constructor (phmap.hpp:1817-1830). -/
def copyN (that : Tbl α) : Res (Tbl α) := do
  let t ← (nil : Tbl α).rehashN C that.capacity
  let vs ← that.iterateN C
  let t ← vs.foldlM (copyStep C) t
  .ok { t with size := that.size, growthLeft := usub t.growthLeft that.size }

/-- Loop of `merge` (phmap.hpp:2283-2291): `(dst, src)`. -/
def mergeLoopN : Nat → Tbl α × Tbl α → Nat → Res (Tbl α × Tbl α)
  | 0, _, _ => .hang
  | n + 1, (dst, src), p =>
    if p = src.capacity then .ok (dst, src)
    else do
      let a ← src.readSlot p
      let (dst, _, ins) ← dst.emplaceHashN C (C.key a) (C.hash (C.key a)) (fun _ => a)
      let src ← (if ins then do
          let src ← src.destroySlot p
          src.eraseMetaOnly C p
        else Res.ok src)
      let nxt ← src.nextN C p
      mergeLoopN n (dst, src) nxt

/-- `merge(src)` (phmap.hpp:2283-2291). -/
def mergeN (dst src : Tbl α) : Res (Tbl α × Tbl α) := do
  let b ← src.beginN C
  mergeLoopN C src.fuel (dst, src) b

/-- Early-exit loop of `operator==` (phmap.hpp:2470-2473). -/
def allInN (veq : α → α → Bool) (inner : Tbl α) : List α → Res Bool
  | [] => .ok true
  | a :: as => do
    let b ← inner.hasElementN C veq a
    if b then allInN veq inner as else .ok false

/-- `operator==` (phmap.hpp:2464-2475). -/
def beqTblN (veq : α → α → Bool) (a b : Tbl α) : Res Bool :=
  if a.size ≠ b.size then .ok false
  else
    let (outer, inner) := if a.capacity > b.capacity then (b, a) else (a, b)
    do
      let vs ← outer.iterateN C
      allInN C veq inner vs

/-- `insert(first, last)` for random access ranges (phmap.hpp:2007-2012). -/
def insertRangeN (t : Tbl α) (vs : List α) : Res (Tbl α) := do
  let t ← t.reserveN C (t.size + vs.length)
  vs.foldlM (fun t v => do
    let (t, _, _) ← t.emplaceN C v
    .ok t) t

/-- Move constructor (phmap.hpp:1832-1848): `(new, that)`; `that.ctrl_` becomes the null pointer. -/
def moveN (that : Tbl α) : Tbl α × Tbl α := (that, nil)

/-- Copy assignment (phmap.hpp:1871-1876). -/
def copyAssignN (t that : Tbl α) : Res (Tbl α) := do
  let tmp ← that.copyN C
  let (t, tmp) := swap t tmp
  let _ ← tmp.destroySlotsN
  .ok t

/-- `move_assign` (phmap.hpp:2825-2829). Returns `(this, that)`. -/
def moveAssignN (t that : Tbl α) : Res (Tbl α × Tbl α) := do
  let (tmp, that) := moveN that
  let (t, tmp) := swap t tmp
  let _ ← tmp.destroySlotsN
  .ok (t, that)

/-- One operation on one container. -/
def stepN (t : Tbl α) : Op α κ → Res (Tbl α × Resp α)
  | .insert a => do
    let (t, off, ins) ← t.emplaceN C a
    let b ← t.readSlot off
    .ok (t, .ins b ins)
  | .insertOrAssign a f => do
    let (t, off, ins) ← t.insertOrAssignN C a f
    let b ← t.readSlot off
    .ok (t, .ins b ins)
  | .subscript a f => do
    let (t, off) ← t.subscriptN C a
    let b ← t.readSlot off
    let t ← t.assignAt off f
    .ok (t, .elem (some b))
  | .at k => do
    let o ← t.atN C k
    .ok (t, .elem o)
  | .find k => do
    match ← t.findN C k with
    | none => .ok (t, .elem none)
    | some off => do
      let a ← t.readSlot off
      .ok (t, .elem (some a))
  | .contains k => do
    let b ← t.containsN C k
    .ok (t, .bool b)
  | .count k => do
    let n ← t.countN C k
    .ok (t, .nat n)
  | .erase k => do
    let (t, n) ← t.eraseN C k
    .ok (t, .nat n)
  | .eraseIf p => do
    let (t, n) ← t.eraseIfN C p
    .ok (t, .nat n)
  | .extract k => do
    let (t, o) ← t.extractN C k
    .ok (t, .elem o)
  | .insertNode n => do
    let (t, off, ins, left) ← t.insertNodeN C n
    match off with
    | none => .ok (t, .node none ins left)
    | some off => do
      let a ← t.readSlot off
      .ok (t, .node (some a) ins left)
  | .toggle a => do
    let t ← t.emplaceSingleN C (C.key a) (C.hash (C.key a)) (fun _ => a)
    .ok (t, .unit)
  | .insertRange vs => do
    let t ← t.insertRangeN C vs
    .ok (t, .unit)
  | .size => .ok (t, .nat t.size)
  | .clear => do
    let t ← t.clear C
    .ok (t, .unit)
  | .reserve n => do
    let t ← t.reserveN C n
    .ok (t, .unit)
  | .rehash n => do
    let t ← t.rehashN C n
    .ok (t, .unit)

/-- One operation on a family of containers. -/
def wstepN [BEq α] (w : Nat → Tbl α) : WOp α κ → Res ((Nat → Tbl α) × Resp α)
  | .on i op => do
    let (t, r) ← (w i).stepN C op
    .ok (put w i t, r)
  | .create i n => do
    let (t, _) ← moveAssignN (w i) (withBucketsN C n)
    .ok (put w i t, .unit)
  | .copy i j => do
    let t ← copyAssignN C (w i) (w j)
    .ok (put w i t, .unit)
  | .move i j =>
    if i = j then do
      let (tmp, t) := moveN (w i)
      let (t, tmp) := swap t tmp
      let _ ← tmp.destroySlotsN
      .ok (put w i t, .unit)
    else do
      let (t, u) ← moveAssignN (w i) (w j)
      .ok (put (put w j u) i t, .unit)
  | .swap i j =>
    let (t, u) := swap (w i) (w j)
    .ok (put (put w i t) j u, .unit)
  | .merge i j => do
    let (t, u) ← mergeN C (w i) (w j)
    .ok (put (put w i t) j u, .unit)
  | .equal i j => do
    let b ← beqTblN C (· == ·) (w i) (w j)
    .ok (w, .bool b)

/-- A whole history, collecting the answers. -/
def wrunN [BEq α] (w : Nat → Tbl α) : List (WOp α κ) → Res ((Nat → Tbl α) × List (Resp α))
  | [] => .ok (w, [])
  | op :: ops => do
    let (w, r) ← wstepN C w op
    let (w, rs) ← wrunN w ops
    .ok (w, r :: rs)

end

end Tbl
end Gtl.Swiss
