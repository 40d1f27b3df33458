import Verif.Swiss.World
import Verif.Swiss.Drop
import Verif.Spec.Throws
/-!
# Hash containers whose hash function throws

The functions of `Verif.Swiss.Table` and `Verif.Swiss.World` once more, in a form in which every call of the hash function is a
point where the function may be left by an exception. A run is given the number `k` of hash calls that still succeed; the
next one throws. An exception leaves a table, and the list of the elements that are then in no slot the table knows of: nobody
will find or destroy them.
-/

namespace Gtl.Swiss

open Gtl.Spec (Op Resp TResp)

/-- How a function comes to its end: it returns, and `k` more hash calls are going to succeed, or the hash function throws. -/
inductive Ending (α β : Type) where
  | done (x : β) (k : Nat)
  | threw (t : Tbl α) (lost : List α)

/-- A computation that calls the hash function: from the number of calls that succeed to what happens. -/
def Hashing (α β : Type) : Type := Nat → Res (Ending α β)

namespace Hashing
variable {α β γ : Type}

/-- Go on when nothing was thrown. -/
def bind (x : Hashing α β) (f : β → Hashing α γ) : Hashing α γ := fun k =>
  match x k with
  | .ok (.done b k) => f b k
  | .ok (.threw t lost) => .ok (.threw t lost)
  | .ub => .ub
  | .hang => .hang

instance : Monad (Hashing α) where
  pure b := fun k => .ok (.done b k)
  bind := bind

/-- A part that does not call the hash function. -/
def lift (r : Res β) : Hashing α β := fun k =>
  match r with
  | .ok b => .ok (.done b k)
  | .ub => .ub
  | .hang => .hang

instance : MonadLift Res (Hashing α) := ⟨lift⟩

/-- A call of the hash function. When it throws, the table is `t` and the elements of `lost` are gone. -/
def hash (t : Tbl α) (lost : List α) : Hashing α Unit := fun k =>
  match k with
  | 0 => .ok (.threw t lost)
  | k + 1 => .ok (.done () k)

end Hashing

namespace Tbl
variable {α κ : Type} (C : Cfg α κ)

/-- The loop of `resize` (phmap.hpp:2678-2686) over the given indices. The members already describe the new arrays
(phmap.hpp:2675-2676), the old arrays are local variables: when the hash of an element throws (2680), what is still in the old
arrays is lost, together with the arrays. -/
def resizeLoopH : List Nat → Tbl α × Tbl α → Hashing α (Tbl α × Tbl α)
  | [], s => pure s
  | i :: is, s => do
    let c ← s.1.ctrlAt i
    if isFull c then do
      Hashing.hash s.2 (s.1.slots.filterMap id)
      let s ← resizeStep C s i
      resizeLoopH is s
    else do
      let s ← resizeStep C s i
      resizeLoopH is s

/-- `resize` (phmap.hpp:2670-2692). -/
def resizeH (t : Tbl α) (newCap : Nat) : Hashing α (Tbl α) := do
  let s ← resizeLoopH C (List.range t.capacity) (t, initializeSlots C t newCap)
  if s.1.slots.all Option.isNone then pure s.2 else Res.ub

/-- A table that an exception has left in the middle of `drop_deletes_without_resize` (phmap.hpp:2721). A slot that is marked
deleted holds an element that was not placed yet; from now on the mark means what it always means, that there is no element
here. Nothing destroys the element: the next insertion into the slot overwrites it. Simplification: the slot is taken to be
raw memory from now on. -/
def abandon (t : Tbl α) : Tbl α :=
  { t with slots := List.zipWith (fun c o => if isDeleted c then none else o) t.ctrl t.slots }

/-- The elements in those slots. -/
def abandoned (t : Tbl α) : List α :=
  (List.zipWith (fun c o => if isDeleted c then o else none) t.ctrl t.slots).filterMap id

/-- The loop of `drop_deletes_without_resize` (phmap.hpp:2718-2755). -/
def dropLoopH : Nat → Nat → Tbl α → Hashing α (Tbl α)
  | 0, _, _ => Hashing.lift .hang
  | n + 1, i, t =>
    if i = t.capacity then pure t
    else do
      let c ← t.ctrlAt i
      if !isDeleted c then dropLoopH n (i + 1) t
      else do
        Hashing.hash t.abandon t.abandoned
        let r ← t.dropIter C i
        dropLoopH n r.1 r.2

/-- `drop_deletes_without_resize` (phmap.hpp:2694-2757). An exception skips `reset_growth_left`. -/
def dropDeletesH (t : Tbl α) : Hashing α (Tbl α) := do
  let t ← t.convertCtrl C
  let t ← dropLoopH C (2 * t.capacity + 1) 0 t
  pure { t with growthLeft := usub (capacityToGrowth C.G.W t.capacity) t.size }

/-- `rehash_and_grow_if_necessary` (phmap.hpp:2759-2769). -/
def rehashAndGrowH (t : Tbl α) : Hashing α (Tbl α) :=
  if t.capacity = 0 then t.resizeH C 1
  else if t.size ≤ capacityToGrowth C.G.W t.capacity / 2 then t.dropDeletesH C
  else t.resizeH C (t.capacity * 2 + 1)

/-- `prepare_insert` (phmap.hpp:2867-2881). -/
def prepareInsertH (t : Tbl α) (hashval : Nat) : Hashing α (Tbl α × Nat) := do
  let target ← t.findFirstNonFull C hashval
  let c ← t.ctrlAt target
  let s ← (if t.growthLeft = 0 ∧ ¬ isDeleted c then do
      let t ← t.rehashAndGrowH C
      let target ← t.findFirstNonFull C hashval
      pure (t, target)
    else pure (t, target))
  let c ← s.1.ctrlAt s.2
  pure ({ s.1 with size := s.1.size + 1
                   growthLeft := usub s.1.growthLeft (if isEmpty c then 1 else 0) }, s.2)

/-- `emplace(args...)` / `insert(value)` (phmap.hpp:1941-1985, 2068-2071, 2543-2562): the key is hashed before anything
else (2557). -/
def emplaceH (t : Tbl α) (a : α) : Hashing α (Tbl α × Nat × Bool) := do
  Hashing.hash t []
  let o ← t.findHash C (C.key a) (C.hash (C.key a))
  match o with
  | some off => pure (t, off, false)
  | none => do
    let s ← t.prepareInsertH C (C.hash (C.key a))
    let t ← s.1.constructSlot s.2 a
    let t ← t.setCtrl C.G.W s.2 (H2 (C.hash (C.key a)))
    pure (t, s.2, true)

/-- `insert_or_assign_impl` (phmap.hpp:3140-3151). -/
def insertOrAssignH (t : Tbl α) (a : α) (f : α → α) : Hashing α (Tbl α × Nat × Bool) := do
  Hashing.hash t []
  let o ← t.findHash C (C.key a) (C.hash (C.key a))
  match o with
  | none => do
    let s ← t.prepareInsertH C (C.hash (C.key a))
    let t ← s.1.constructSlot s.2 a
    let t ← t.setCtrl C.G.W s.2 (H2 (C.hash (C.key a)))
    pure (t, s.2, true)
  | some off => do
    let t ← t.assignAt off f
    pure (t, off, false)

/-- `emplace_single_with_hash` (phmap.hpp:2210-2219), by a caller that computes the hash with `hash(key)` first. -/
def emplaceSingleH (t : Tbl α) (a : α) : Hashing α (Tbl α) := do
  Hashing.hash t []
  let o ← t.findHash C (C.key a) (C.hash (C.key a))
  match o with
  | some off => t.eraseAt C off
  | none => do
    let s ← t.prepareInsertH C (C.hash (C.key a))
    let t ← s.1.constructSlot s.2 a
    t.setCtrl C.G.W s.2 (H2 (C.hash (C.key a)))

/-- `rehash(n)` (phmap.hpp:2338-2353). -/
def rehashH (t : Tbl α) (n : Nat) : Hashing α (Tbl α) :=
  if n = 0 ∧ t.capacity = 0 then pure t
  else if n = 0 ∧ t.size = 0 then Hashing.lift t.destroySlots
  else
    let m := normalizeCapacity (max n t.size)
    if n = 0 ∨ m > t.capacity then t.resizeH C m else pure t

/-- `reserve(n)` (phmap.hpp:2355). -/
def reserveH (t : Tbl α) (n : Nat) : Hashing α (Tbl α) := t.rehashH C (growthToLowerboundCapacity C.G.W n)

/-- The loop of `insert(first, last)` (phmap.hpp:2009-2011). -/
def insertAllH : List α → Tbl α → Hashing α (Tbl α)
  | [], t => pure t
  | v :: vs, t => do
    let s ← t.emplaceH C v
    insertAllH vs s.1

/-- `insert(first, last)` for random access ranges (phmap.hpp:2007-2012). -/
def insertRangeH (t : Tbl α) (vs : List α) : Hashing α (Tbl α) := do
  let t ← t.reserveH C (t.size + vs.length)
  insertAllH C vs t

/-- One call on one container. The calls that look a key up hash it before anything else (phmap.hpp:2414, 2423). -/
def stepH (t : Tbl α) : Op α κ → Hashing α (Tbl α × Resp α)
  | .insert a => do
    let s ← t.emplaceH C a
    let b ← s.1.readSlot s.2.1
    pure (s.1, .ins b s.2.2)
  | .insertOrAssign a f => do
    let s ← t.insertOrAssignH C a f
    let b ← s.1.readSlot s.2.1
    pure (s.1, .ins b s.2.2)
  | .subscript a f => do
    let s ← t.emplaceH C a
    let b ← s.1.readSlot s.2.1
    let t ← s.1.assignAt s.2.1 f
    pure (t, .elem (some b))
  | .insertNode none => Hashing.lift (t.step C (.insertNode none))
  | .insertNode (some a) => do
    let s ← t.emplaceH C a
    let b ← s.1.readSlot s.2.1
    pure (s.1, .node (some b) s.2.2 (if s.2.2 then none else some a))
  | .toggle a => do
    let t ← t.emplaceSingleH C a
    pure (t, .unit)
  | .insertRange vs => do
    let t ← t.insertRangeH C vs
    pure (t, .unit)
  | .reserve n => do
    let t ← t.reserveH C n
    pure (t, .unit)
  | .rehash n => do
    let t ← t.rehashH C n
    pure (t, .unit)
  | .at k => do
    Hashing.hash t []
    t.step C (.at k)
  | .find k => do
    Hashing.hash t []
    t.step C (.find k)
  | .contains k => do
    Hashing.hash t []
    t.step C (.contains k)
  | .count k => do
    Hashing.hash t []
    t.step C (.count k)
  | .erase k => do
    Hashing.hash t []
    t.step C (.erase k)
  | .extract k => do
    Hashing.hash t []
    t.step C (.extract k)
  | .eraseIf p => Hashing.lift (t.step C (.eraseIf p))
  | .clear => Hashing.lift (t.step C .clear)
  | .size => Hashing.lift (t.step C .size)

/-- Copy constructor (phmap.hpp:1817-1830) when the hash of element number `n` (counted from 0) throws (1824). The constructor it
delegates to has completed, so the destructor (1886) runs. -/
def copyHashThrow (that : Tbl α) (n : Nat) : Res (Tbl α) := do
  let t ← (empty : Tbl α).rehash C that.capacity
  let vs ← that.iterate C
  let t ← (vs.take n).foldlM (fun t v => do
    let hashval := C.hash (C.key v)
    let target ← t.findFirstNonFull C hashval
    let t ← t.setCtrl C.G.W target (H2 hashval)
    t.constructSlot target v) t
  t.destroySlots

/-- A history: calls, each with the number of hash calls that succeed during it. The program catches the exceptions. -/
def runH (t : Tbl α) : List (Op α κ × Nat) → Res (Tbl α × List (TResp α))
  | [] => .ok (t, [])
  | (op, k) :: ops =>
    match t.stepH C op k with
    | .ok (.done s _) => do
      let u ← runH s.1 ops
      .ok (u.1, .got s.2 :: u.2)
    | .ok (.threw t _) => do
      let u ← runH t ops
      .ok (u.1, .threw :: u.2)
    | .ub => .ub
    | .hang => .hang

end Tbl
end Gtl.Swiss
