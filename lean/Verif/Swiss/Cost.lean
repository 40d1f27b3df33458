import Verif.Swiss.World
/-!
# Hash tables that count their work

The functions of `Swiss/Table.lean` and `Swiss/World.lean` that hash or relocate elements, written once more so
that they also count

* `hashes`: calls of the user's hash function,
* `moves`: relocations of elements that are already in the table (a relocation is one move construction
  and one destruction; the swap through the temporary slot is three of them),
* `scans`: slots examined by the loops that rehash.

The move of a new element into its slot is not counted, nor are the destructions.
-/

namespace Gtl.Swiss

variable {α κ : Type}

/-- The counters. -/
structure Work where
  hashes : Nat
  moves : Nat
  scans : Nat
  deriving DecidableEq, Repr

namespace Work

/-- Sum of two counts. -/
def add (a b : Work) : Work := ⟨a.hashes + b.hashes, a.moves + b.moves, a.scans + b.scans⟩

instance : Add Work := ⟨add⟩

/-- Nothing. -/
def none : Work := ⟨0, 0, 0⟩

/-- One call of the hash function. -/
def hash : Work := ⟨1, 0, 0⟩

end Work

namespace Tbl
open Spec (Op Resp)

section
variable (C : Cfg α κ)

/-- `resizeStep` (phmap.hpp:2677-2685), counting: line 2680 hashes, line 2684 transfers the element. -/
def resizeStepW (s : (Tbl α × Tbl α) × Work) (i : Nat) : Res ((Tbl α × Tbl α) × Work) := do
  let c ← s.1.1.ctrlAt i
  if isFull c then do
    let a ← s.1.1.readSlot i
    let hashval := C.hash (C.key a)
    let newI ← s.1.2.findFirstNonFull C hashval
    let t ← s.1.2.setCtrl C.G.W newI (H2 hashval)
    let t ← t.constructSlot newI a
    let old ← s.1.1.destroySlot i
    .ok ((old, t), s.2 + ⟨1, 1, 1⟩)
  else .ok (s.1, s.2 + ⟨0, 0, 1⟩)

/-- `resize` (phmap.hpp:2670-2692), counting. -/
def resizeW (t : Tbl α) (newCap : Nat) : Res (Tbl α × Work) := do
  let s ← (List.range t.capacity).foldlM (resizeStepW C) ((t, initializeSlots C t newCap), Work.none)
  if s.1.1.slots.all Option.isNone then .ok (s.1.2, s.2) else .ub

/-- Loop of `drop_deletes_without_resize` (phmap.hpp:2718-2755), counting: line 2721 hashes; line 2741
transfers the element; lines 2748-2750 swap two elements through the temporary slot. -/
def dropLoopW : Nat → Nat → Tbl α → Work → Res (Tbl α × Work)
  | 0, _, _, _ => .hang
  | n + 1, i, t, w =>
    if i = t.capacity then .ok (t, w)
    else do
      let c ← t.ctrlAt i
      if !isDeleted c then dropLoopW n (i + 1) t (w + ⟨0, 0, 1⟩)
      else do
        let a ← t.readSlot i
        let hashval := C.hash (C.key a)
        let newI ← t.findFirstNonFull C hashval
        let probeIndex := fun pos => (subMask pos (Probe.start hashval t.capacity).offset t.capacity) / C.G.W
        if probeIndex newI = probeIndex i then do
          let t ← t.setCtrl C.G.W i (H2 hashval)
          dropLoopW n (i + 1) t (w + ⟨1, 0, 1⟩)
        else do
          let cn ← t.ctrlAt newI
          if isEmpty cn then do
            let t ← t.setCtrl C.G.W newI (H2 hashval)
            let t ← t.constructSlot newI a
            let t ← t.destroySlot i
            let t ← t.setCtrl C.G.W i kEmpty
            dropLoopW n (i + 1) t (w + ⟨1, 1, 1⟩)
          else do
            let t ← t.setCtrl C.G.W newI (H2 hashval)
            let b ← t.readSlot newI
            let t ← t.destroySlot i
            let t ← t.constructSlot i b
            let t ← t.destroySlot newI
            let t ← t.constructSlot newI a
            dropLoopW n i t (w + ⟨1, 3, 1⟩)

/-- `drop_deletes_without_resize` (phmap.hpp:2694-2757), counting. -/
def dropDeletesW (t : Tbl α) : Res (Tbl α × Work) := do
  let t ← t.convertCtrl C
  let s ← dropLoopW C (2 * t.capacity + 1) 0 t Work.none
  .ok ({ s.1 with growthLeft := usub (capacityToGrowth C.G.W s.1.capacity) s.1.size }, s.2)

/-- `rehash_and_grow_if_necessary` (phmap.hpp:2759-2769), counting. -/
def rehashAndGrowW (t : Tbl α) : Res (Tbl α × Work) :=
  if t.capacity = 0 then t.resizeW C 1
  else if t.size ≤ capacityToGrowth C.G.W t.capacity / 2 then t.dropDeletesW C
  else t.resizeW C (t.capacity * 2 + 1)

/-- `prepare_insert` (phmap.hpp:2867-2881), counting. -/
def prepareInsertW (t : Tbl α) (hashval : Nat) : Res ((Tbl α × Nat) × Work) := do
  let target ← t.findFirstNonFull C hashval
  let c ← t.ctrlAt target
  let s ←
    if t.growthLeft = 0 ∧ ¬ isDeleted c then do
      let s ← t.rehashAndGrowW C
      let target ← s.1.findFirstNonFull C hashval
      Res.ok ((s.1, target), s.2)
    else Res.ok ((t, target), Work.none)
  let c ← s.1.1.ctrlAt s.1.2
  .ok (({ s.1.1 with size := s.1.1.size + 1
                     growthLeft := usub s.1.1.growthLeft (if isEmpty c then 1 else 0) }, s.1.2), s.2)

/-- Prepare a slot for a new element, construct it there and mark it full (phmap.hpp:2547-2551, 2190-2194,
2582-2585, 3146-3149, 3159-3164), counting. -/
def placeW (t : Tbl α) (hashval : Nat) (a : α) : Res ((Tbl α × Nat) × Work) := do
  let s ← t.prepareInsertW C hashval
  let t ← s.1.1.constructSlot s.1.2 a
  let t ← t.setCtrl C.G.W s.1.2 (H2 hashval)
  .ok ((t, s.1.2), s.2)

/-- `emplace(args...)` / `insert(value)` (phmap.hpp:1941-1985, 2068-2071, 2543-2559), counting: line 2557
hashes the key. -/
def emplaceW (t : Tbl α) (a : α) : Res ((Tbl α × Nat × Bool) × Work) := do
  match ← t.findHash C (C.key a) (C.hash (C.key a)) with
  | some off => .ok ((t, off, false), Work.hash)
  | none => do
    let s ← t.placeW C (C.hash (C.key a)) a
    .ok ((s.1.1, s.1.2, true), Work.hash + s.2)

/-- `insert_or_assign_impl` (phmap.hpp:3140-3151), counting: line 3141 hashes the key. -/
def insertOrAssignW (t : Tbl α) (a : α) (f : α → α) : Res ((Tbl α × Nat × Bool) × Work) := do
  match ← t.findHash C (C.key a) (C.hash (C.key a)) with
  | none => do
    let s ← t.placeW C (C.hash (C.key a)) a
    .ok ((s.1.1, s.1.2, true), Work.hash + s.2)
  | some off => do
    let t ← t.assignAt off f
    .ok ((t, off, false), Work.hash)

/-- `emplace_single_with_hash` (phmap.hpp:2210-2219), counting; the call of the hash function that the caller
makes for it (3944-3950) is included. -/
def emplaceSingleW (t : Tbl α) (a : α) : Res (Tbl α × Work) := do
  match ← t.findHash C (C.key a) (C.hash (C.key a)) with
  | some off => do
    let t ← t.eraseAt C off
    .ok (t, Work.hash)
  | none => do
    let s ← t.placeW C (C.hash (C.key a)) a
    .ok (s.1.1, Work.hash + s.2)

/-- `rehash(n)` (phmap.hpp:2338-2353), counting. -/
def rehashW (t : Tbl α) (n : Nat) : Res (Tbl α × Work) :=
  if n = 0 ∧ t.capacity = 0 then .ok (t, Work.none)
  else if n = 0 ∧ t.size = 0 then do
    let t ← t.destroySlots
    .ok (t, Work.none)
  else
    let m := normalizeCapacity (max n t.size)
    if n = 0 ∨ m > t.capacity then t.resizeW C m else .ok (t, Work.none)

/-- `reserve(n)` (phmap.hpp:2355), counting. -/
def reserveW (t : Tbl α) (n : Nat) : Res (Tbl α × Work) := t.rehashW C (growthToLowerboundCapacity C.G.W n)

/-- The loop of `insert(first, last)` (phmap.hpp:2009-2011), counting. -/
def insertAllW : List α → Tbl α → Res (Tbl α × Work)
  | [], t => .ok (t, Work.none)
  | v :: vs, t => do
    let s ← t.emplaceW C v
    let u ← insertAllW vs s.1.1
    .ok (u.1, s.2 + u.2)

/-- `insert(first, last)` for random access ranges (phmap.hpp:2007-2012), counting. -/
def insertRangeW (t : Tbl α) (vs : List α) : Res (Tbl α × Work) := do
  let s ← t.reserveW C (t.size + vs.length)
  let u ← insertAllW C vs s.1
  .ok (u.1, s.2 + u.2)

/-- One operation on one container, counting.  The calls that take a key and only look it up, erase or extract
hash it once (phmap.hpp:2414, 2423) and rehash nothing; `erase_if`, `clear` and `size` hash nothing. -/
def stepW (t : Tbl α) : Op α κ → Res ((Tbl α × Resp α) × Work)
  | .insert a => do
    let s ← t.emplaceW C a
    let b ← s.1.1.readSlot s.1.2.1
    .ok ((s.1.1, .ins b s.1.2.2), s.2)
  | .insertOrAssign a f => do
    let s ← t.insertOrAssignW C a f
    let b ← s.1.1.readSlot s.1.2.1
    .ok ((s.1.1, .ins b s.1.2.2), s.2)
  | .subscript a f => do
    let s ← t.emplaceW C a
    let b ← s.1.1.readSlot s.1.2.1
    let t ← s.1.1.assignAt s.1.2.1 f
    .ok ((t, .elem (some b)), s.2)
  | .insertNode none => do
    let r ← t.step C (.insertNode none)
    .ok (r, Work.none)
  | .insertNode (some a) => do
    let s ← t.emplaceW C a
    let b ← s.1.1.readSlot s.1.2.1
    .ok ((s.1.1, .node (some b) s.1.2.2 (if s.1.2.2 then none else some a)), s.2)
  | .toggle a => do
    let s ← t.emplaceSingleW C a
    .ok ((s.1, .unit), s.2)
  | .insertRange vs => do
    let s ← t.insertRangeW C vs
    .ok ((s.1, .unit), s.2)
  | .reserve n => do
    let s ← t.reserveW C n
    .ok ((s.1, .unit), s.2)
  | .rehash n => do
    let s ← t.rehashW C n
    .ok ((s.1, .unit), s.2)
  | .at k => do
    let r ← t.step C (.at k)
    .ok (r, Work.hash)
  | .find k => do
    let r ← t.step C (.find k)
    .ok (r, Work.hash)
  | .contains k => do
    let r ← t.step C (.contains k)
    .ok (r, Work.hash)
  | .count k => do
    let r ← t.step C (.count k)
    .ok (r, Work.hash)
  | .erase k => do
    let r ← t.step C (.erase k)
    .ok (r, Work.hash)
  | .extract k => do
    let r ← t.step C (.extract k)
    .ok (r, Work.hash)
  | .eraseIf p => do
    let r ← t.step C (.eraseIf p)
    .ok (r, Work.none)
  | .clear => do
    let r ← t.step C .clear
    .ok (r, Work.none)
  | .size => do
    let r ← t.step C .size
    .ok (r, Work.none)

/-- A history on one container, counting. -/
def runW (t : Tbl α) : List (Op α κ) → Res ((Tbl α × List (Resp α)) × Work)
  | [] => .ok ((t, []), Work.none)
  | op :: ops => do
    let s ← t.stepW C op
    let u ← runW s.1.1 ops
    .ok ((u.1.1, s.1.2 :: u.1.2), s.2 + u.2)

end
end Tbl
end Gtl.Swiss
