/-
A model of `gtl::vector` (include/gtl/vector.hpp): blocks of memory whose cells
hold an object or nothing, a vector of three pointers, and every operation as a
program over them that may finish, throw or have undefined behaviour.
-/
namespace Gtl.Vec

/-- What the code asks about the element type and the allocator.
`bits`: vector.hpp 610, `is_trivially_copyable_v<T> && usingStdAllocator`, relocation is `memcpy`.
`nothrow`: 612, `is_nothrow_move_constructible<T> && usingStdAllocator`.
`nocopy`: 613, `!is_copy_constructible<T>`.
`byValue`: 246, `should_pass_by_value`.
`memset`: 430, the standard allocator with a type that is no class.
`size`: `sizeof(T)`.
`husk a` is the value left in an object with value `a` that has been moved from
(or whose assignment has failed): any function.
`dflt`, `zero`: the value-initialised object and the one whose bytes are all zero. -/
structure Traits (α : Type) where
  bits : Bool
  nothrow : Bool
  nocopy : Bool
  byValue : Bool
  memset : Bool
  size : Nat
  husk : α → α
  dflt : α
  zero : α

/-- `Impl` (vector.hpp 102-112): `b_` (a block or null), `e_ - b_` and `z_ - b_`. -/
structure Vec where
  b : Option Nat
  e : Nat
  z : Nat
deriving DecidableEq

/-- The memory and the vector an operation works on (`impl_`).
`len p` is the number of cells of the block `p` if it is allocated.
`mem p i` is the object in cell `i` of block `p`, `none` when there is none.
`luck` decides, in order, whether each thing that may throw throws. -/
structure St (α : Type) where
  mem : Nat → Nat → Option α
  len : Nat → Option Nat
  next : Nat
  luck : Nat → Bool
  vec : Vec

/-- Exceptions: one thrown by an operation of the element type or by an allocator short of memory
(`failed`), `std::bad_alloc` for a request that no allocator can satisfy (`huge`), and
`std::out_of_range` (`range`). -/
inductive Exc where
  | failed
  | huge
  | range
deriving DecidableEq

/-- How a piece of code ends. `ub` also stands for `std::terminate` and for leaks. -/
inductive Out (σ β : Type) where
  | ok (b : β) (s : σ)
  | thrown (x : Exc) (s : σ)
  | ub

/-- Programs. -/
def M (α β : Type) : Type := St α → Out (St α) β

namespace M
variable {α β γ : Type}

/-- Return a value. -/
protected def pure (b : β) : M α β := fun s => .ok b s

/-- One program after another; exceptions and undefined behaviour end it. -/
protected def bind (m : M α β) (f : β → M α γ) : M α γ := fun s =>
  match m s with
  | .ok b s' => f b s'
  | .thrown x s' => .thrown x s'
  | .ub => .ub

instance : Monad (M α) where
  pure := M.pure
  bind := M.bind

/-- Undefined behaviour. -/
def ub : M α β := fun _ => .ub

/-- Throw an exception. -/
def throw (x : Exc) : M α β := fun s => .thrown x s

/-- `gtl::scoped_guard` around `m` (dismissed when `m` ends normally): when an
exception leaves `m` the rollback `r` runs; an exception from the rollback terminates. -/
def guarded (m : M α β) (r : M α Unit) : M α β := fun s =>
  match m s with
  | .ok b s' => .ok b s'
  | .thrown x s' =>
    match r s' with
    | .ok _ s'' => .thrown x s''
    | .thrown _ _ => .ub
    | .ub => .ub
  | .ub => .ub

/-- `try { m } catch (...) { r }` -/
def caught (m : M α β) (r : M α β) : M α β := fun s =>
  match m s with
  | .ok b s' => .ok b s'
  | .thrown _ s' => r s'
  | .ub => .ub

/-- `m` with a local object whose destructor is `d`. -/
def finally_ (m : M α β) (d : M α Unit) : M α β := do
  let b ← guarded m d
  d
  return b

/-- The vector `*this`. -/
def self : M α Vec := fun s => .ok s.vec s

/-- Assign the three pointers of `*this`. -/
def setVec (v : Vec) : M α Unit := fun s => .ok () { s with vec := v }

end M

open M

variable {α : Type}

/-- Something that may throw when `b`. -/
def may (b : Bool) : M α Unit := fun s =>
  if b then
    if s.luck 0 then .thrown .failed { s with luck := fun i => s.luck (i + 1) }
    else .ok () { s with luck := fun i => s.luck (i + 1) }
  else .ok () s

/-- The cell `i` of block `p`; undefined when there is no such memory. -/
def cell (p : Option Nat) (i : Nat) : M α (Option α) := fun s =>
  match p with
  | none => .ub
  | some p =>
    match s.len p with
    | none => .ub
    | some n => if i < n then .ok (s.mem p i) s else .ub

/-- Change one cell. -/
def update (mem : Nat → Nat → Option α) (p i : Nat) (c : Option α) : Nat → Nat → Option α :=
  fun q j => if q = p ∧ j = i then c else mem q j

/-- Put an object into cell `i` of block `p`, or remove it; undefined when there is no such memory. -/
def setCell (p : Option Nat) (i : Nat) (c : Option α) : M α Unit := fun s =>
  match p with
  | none => .ub
  | some p =>
    match s.len p with
    | none => .ub
    | some n => if i < n then .ok () { s with mem := update s.mem p i c } else .ub

/-- Reading an object; undefined when there is none. -/
def get (p : Option Nat) (i : Nat) : M α α := do
  match ← cell p i with
  | some a => return a
  | none => ub

/-- Where the value of a new object comes from: a value outside all vectors, or
a reference to an object in memory. -/
inductive Src (α : Type) where
  | val (a : α)
  | ref (p : Option Nat) (i : Nat)

/-- The value of the source now. -/
def fetch : Src α → M α α
  | .val a => return a
  | .ref p i => get p i

/-- `S_construct`, `M_construct` (vector.hpp 274-330) once the value is known: the cell must be
empty, or the type trivial. -/
def place (t : Traits α) (p : Option Nat) (i : Nat) (a : α) : M α Unit := do
  let c ← cell p i
  if c.isNone || t.bits then setCell p i (some a) else ub

/-- `M_construct(p, value)` (vector.hpp 274-330): the constructor may throw. -/
def build (t : Traits α) (p : Option Nat) (i : Nat) (src : Src α) : M α Unit := do
  let a ← fetch src
  may !t.bits
  place t p i a

/-- `construct(p, std::move(*q))`: a constructor that throws may have spoilt its source. -/
def buildMove (t : Traits α) (p : Option Nat) (i : Nat) (q : Option Nat) (j : Nat) : M α Unit := do
  let a ← get q j
  guarded (may !t.nothrow) (setCell q j (some (t.husk a)))
  setCell q j (some (t.husk a))
  place t p i a

/-- `M_destroy`, one round of `S_destroy_range` (vector.hpp 335-344, 370-383): there must be an
object. Nothing happens to trivial ones. -/
def destroy (t : Traits α) (p : Option Nat) (i : Nat) : M α Unit := do
  if t.bits then
    let _ ← cell p i
    return ()
  else
    let _ ← get p i
    setCell p i none

/-- `S_destroy_range` (vector.hpp 370-383), element by element. -/
def destroyN (t : Traits α) (p : Option Nat) : Nat → Nat → M α Unit
  | _, 0 => return ()
  | lo, n + 1 => do
    destroy t p lo
    destroyN t p (lo + 1) n

/-- `D_destroy_range_a(first, last)` (vector.hpp 361-383). -/
def destroyRange (t : Traits α) (p : Option Nat) (lo hi : Nat) : M α Unit :=
  if lo ≤ hi then destroyN t p lo (hi - lo) else ub

/-- `M_destroy_range_e` (vector.hpp 354-357). -/
def destroyRangeE (t : Traits α) (pos : Nat) : M α Unit := do
  let v ← self
  destroyRange t v.b pos v.e
  setVec { v with e := pos }

/-- `*p = value`: the assignment may throw, and then spoil the object. -/
def assignAt (t : Traits α) (p : Option Nat) (i : Nat) (src : Src α) : M α Unit := do
  let a ← fetch src
  let old ← get p i
  guarded (may !t.bits) (setCell p i (some (t.husk old)))
  setCell p i (some a)

/-- `*p = std::move(*q)` -/
def moveAssign (t : Traits α) (p : Option Nat) (i : Nat) (q : Option Nat) (j : Nat) : M α Unit := do
  let a ← get q j
  let old ← get p i
  guarded (may !t.bits) (do setCell p i (some (t.husk old)); setCell q j (some (t.husk a)))
  setCell q j (some (t.husk a))
  setCell p i (some a)

/-- `goodMallocSize(n * sizeof(T)) / sizeof(T)` with the product in `size_t`
(vector.hpp 66, 189, 929, 947, 1286). -/
def capOf (t : Traits α) (n : Nat) : Nat := n * t.size % 2 ^ 64 / t.size

/-- A block of `n` empty cells, different from all blocks there have been. -/
def newBlock (n : Nat) : M α Nat := fun s =>
  .ok s.next
    { s with
      len := fun q => if q = s.next then some n else s.len q
      mem := fun q i => if q = s.next then none else s.mem q i
      next := s.next + 1 }

/-- `D_allocate` (vector.hpp 149-155, 68-74): fails when memory is short, always for half of the
address space or more. -/
def alloc (t : Traits α) (n : Nat) : M α Nat := do
  if 2 ^ 63 ≤ n * t.size % 2 ^ 64 then throw .huge
  else
    may true
    newBlock (capOf t n)

/-- Are the first `n` cells of the block empty? -/
def allRaw (mem : Nat → Nat → Option α) (p : Nat) : Nat → Bool
  | 0 => true
  | n + 1 => (mem p n).isNone && allRaw mem p n

/-- `D_deallocate(p, n)` (vector.hpp 157-163): the block must be allocated, with this size (checked
also where `free` does not need it), and contain no object, which would be leaked. -/
def dealloc (t : Traits α) (p : Option Nat) (n : Nat) : M α Unit := fun s =>
  match p with
  | none => .ub
  | some p =>
    if s.len p = some n ∧ (t.bits || allRaw s.mem p n) then
      .ok () { s with len := fun q => if q = p then none else s.len q }
    else .ub

/-- The loops of `S_uninitialized_fill_n`, `S_uninitialized_copy` and their `_a` variants
(vector.hpp 414-457, 493-510): `i` objects have been built from `d` on; the rollback destroys
them. -/
def buildLoop (t : Traits α) (p : Option Nat) (d : Nat) : Nat → List (Src α) → M α Unit
  | _, [] => return ()
  | i, x :: xs => do
    guarded (build t p (d + i) x) (destroyRange t p d (d + i))
    buildLoop t p d (i + 1) xs

/-- The same loop with moving iterators. -/
def moveLoop (t : Traits α) (p : Option Nat) (d : Nat) (q : Option Nat) (j : Nat) : Nat → Nat → M α Unit
  | _, 0 => return ()
  | i, n + 1 => do
    guarded (buildMove t p (d + i) q (j + i)) (destroyRange t p d (d + i))
    moveLoop t p d q j (i + 1) n

/-- `memmove` (vector.hpp 1222, 1318) of `n` objects of a trivial type. -/
def memmove (p : Option Nat) (d : Nat) (q : Option Nat) (j n : Nat) : M α Unit := fun s =>
  if n = 0 then .ok () s
  else
    match p, q with
    | some p, some q =>
      match s.len p, s.len q with
      | some np, some nq =>
        if d + n ≤ np ∧ j + n ≤ nq then
          .ok () { s with mem := fun r i => if r = p ∧ d ≤ i ∧ i < d + n then s.mem q (j + (i - d)) else s.mem r i }
        else .ub
      | _, _ => .ub
    | _, _ => .ub

/-- `memcpy` (vector.hpp 521-568, 632, 1218): undefined when the two ranges overlap. -/
def memcpy (p : Option Nat) (d : Nat) (q : Option Nat) (j n : Nat) : M α Unit :=
  if p = q ∧ d < j + n ∧ j < d + n ∧ 0 < n then ub else memmove p d q j n

/-- References to the objects `j, j+1, ..` of a block. -/
def refs (q : Option Nat) (j n : Nat) : List (Src α) := (List.range' j n).map (.ref q)

/-- `D_uninitialized_copy_a(dest, T*, T*)` (vector.hpp 477-488, 512-516). -/
def uninitCopy (t : Traits α) (p : Option Nat) (d : Nat) (q : Option Nat) (j n : Nat) : M α Unit :=
  if t.bits then memcpy p d q j n else buildLoop t p d 0 (refs q j n)

/-- `D_uninitialized_move_a` (vector.hpp 490-493, 518-524). -/
def uninitMove (t : Traits α) (p : Option Nat) (d : Nat) (q : Option Nat) (j n : Nat) : M α Unit :=
  if t.bits then memcpy p d q j n else moveLoop t p d q j 0 n

/-- `relocate_move` (vector.hpp 617-637). -/
def relocateMove (t : Traits α) (p : Option Nat) (d : Nat) (q : Option Nat) (j n : Nat) : M α Unit :=
  if t.bits then memcpy p d q j n
  else if t.nothrow || t.nocopy then uninitMove t p d q j n
  else uninitCopy t p d q j n

/-- `relocate_done` (vector.hpp 640-646). -/
def relocateDone (t : Traits α) (q : Option Nat) (j n : Nat) : M α Unit :=
  if t.bits then return () else destroyRange t q j (j + n)

/-- `relocate_undo` (vector.hpp 649-663). -/
def relocateUndo (t : Traits α) (p : Option Nat) (d : Nat) (q : Option Nat) (j n : Nat) : M α Unit :=
  if t.bits then return ()
  else if t.nothrow then relocateMove t q j p d n
  else destroyRange t p d (d + n)

/-- `M_relocate` (vector.hpp 603-606). -/
def relocate (t : Traits α) (newB : Option Nat) : M α Unit := do
  let v ← self
  relocateMove t newB 0 v.b 0 v.e
  relocateDone t v.b 0 v.e

/-- `Impl::destroy` (vector.hpp 173-185). -/
def destroyAll (t : Traits α) : M α Unit := do
  let v ← self
  if v.b.isSome then
    destroyRange t v.b 0 v.e
    dealloc t v.b v.z

/-- `Impl::init` (vector.hpp 187-196). -/
def init (t : Traits α) (n : Nat) : M α Unit := do
  if n = 0 then setVec ⟨none, 0, 0⟩
  else
    let b ← alloc t (capOf t n)
    setVec ⟨some b, 0, capOf t n⟩

/-- `Impl::reset(newCap)` (vector.hpp 206-211). -/
def resetTo (t : Traits α) (n : Nat) : M α Unit := do
  destroyAll t
  guarded (init t n) (init t 0)

/-- `Impl::reset()` (vector.hpp 212-215). -/
def reset (t : Traits α) : M α Unit := do
  destroyAll t
  setVec ⟨none, 0, 0⟩

/-- `M_uninitialized_fill_n_e(sz, value)`, `M_uninitialized_copy_e` with other iterators
(vector.hpp 390-398, 464-468): objects are appended within the capacity. -/
def appendE (t : Traits α) (xs : List (Src α)) : M α Unit := do
  let v ← self
  buildLoop t v.b v.e 0 xs
  setVec { v with e := v.e + xs.length }

/-- `M_uninitialized_copy_e(T*, T*)` (vector.hpp 464-468). -/
def appendCopyE (t : Traits α) (q : Option Nat) (j n : Nat) : M α Unit := do
  let v ← self
  uninitCopy t v.b v.e q j n
  setVec { v with e := v.e + n }

/-- The source of the elements added by `resize(n)` and `vector(n)` (vector.hpp 428-447). -/
def fresh (t : Traits α) : Src α := .val (if t.memset then t.zero else t.dflt)

/-- `reserve` (vector.hpp 921-943). In-place growth exists only with jemalloc, which is not
modelled. -/
def reserve (t : Traits α) (n : Nat) : M α Unit := do
  let v ← self
  if n ≤ v.z then return ()
  else
    let newCap := capOf t n
    let newB ← alloc t newCap
    guarded (relocate t (some newB)) (dealloc t (some newB) newCap)
    if v.b.isSome then dealloc t v.b v.z
    setVec ⟨some newB, v.e, newCap⟩

/-- `shrink_to_fit` (vector.hpp 945-994). -/
def shrinkToFit (t : Traits α) : M α Unit := do
  let v ← self
  if v.e = 0 then reset t
  else
    let newCap := capOf t v.e
    if v.z ≤ newCap then return ()
    else
      match ← caught (do let b ← alloc t newCap; return some b) (return none) with
      | none => return ()
      | some newB =>
        let good ← caught (do relocate t (some newB); return true)
                          (do dealloc t (some newB) newCap; return false)
        if good then
          if v.b.isSome then dealloc t v.b v.z
          setVec ⟨some newB, v.e, newCap⟩

/-- `computePushBackCapacity` (vector.hpp 1126-1137). -/
def pushCap (t : Traits α) (cap : Nat) : Nat :=
  if cap = 0 then max (64 / t.size) 1
  else if cap < 4096 / t.size then cap * 2
  else if cap > 4096 * 32 / t.size then cap * 2
  else (cap * 3 + 1) / 2

/-- `emplace_back_aux` (vector.hpp 1139-1199). -/
def emplaceBackAux (t : Traits α) (src : Src α) : M α Unit := do
  let v ← self
  let sz := capOf t (pushCap t v.z)
  let newB ← alloc t sz
  guarded
    (if t.bits then do
      relocateMove t (some newB) 0 v.b 0 v.e
      build t (some newB) v.e src
    else do
      build t (some newB) v.e src
      guarded (relocate t (some newB)) (destroy t (some newB) v.e))
    (dealloc t (some newB) sz)
  if v.b.isSome then dealloc t v.b v.e
  setVec ⟨some newB, v.e + 1, sz⟩

/-- `push_back`, `emplace_back` (vector.hpp 1065-1094). -/
def pushBack (t : Traits α) (src : Src α) : M α Unit := do
  let v ← self
  if v.e ≠ v.z then
    build t v.b v.e src
    setVec { v with e := v.e + 1 }
  else emplaceBackAux t src

/-- `pop_back` (vector.hpp 1096-1100). -/
def popBack (t : Traits α) : M α Unit := do
  let v ← self
  if v.e = 0 then ub
  else
    setVec { v with e := v.e - 1 }
    destroy t v.b (v.e - 1)

/-- `clear` (vector.hpp 1110). -/
def clear (t : Traits α) : M α Unit := destroyRangeE t 0

/-- Is `value` a reference to one of the vector's own elements? `dataIsInternal`
(vector.hpp 862). -/
def isInternal (v : Vec) : Src α → Bool
  | .val _ => false
  | .ref p i => p.isSome && p == v.b && i < v.e

/-- A parameter of type `VT` (vector.hpp 246-248): the value itself for small trivial types, a
reference otherwise. -/
def asVT (t : Traits α) (src : Src α) : M α (Src α) :=
  if t.byValue then do let a ← fetch src; return .val a else return src

/-- `T copy(value)` (vector.hpp 777, 907) -/
def copyOf (t : Traits α) (src : Src α) : M α (Src α) := do
  let a ← fetch src
  may !t.bits
  return .val a

/-- `resize(n)` (vector.hpp 895-902). -/
def resize (t : Traits α) (n : Nat) : M α Unit := do
  let v ← self
  if n ≤ v.e then destroyRangeE t n
  else
    reserve t n
    appendE t (List.replicate (n - v.e) (fresh t))

/-- `resize(n, t)` (vector.hpp 904-915). -/
def resizeWith (t : Traits α) (n : Nat) (src0 : Src α) : M α Unit := do
  let src ← asVT t src0
  let v ← self
  if n ≤ v.e then destroyRangeE t n
  else if isInternal v src && v.z < n then
    let copy ← copyOf t src
    reserve t n
    appendE t (List.replicate (n - v.e) copy)
  else
    reserve t n
    appendE t (List.replicate (n - v.e) src)

/-- `std::fill`, `std::copy`, `S_copy_n`: assignments from `i` on. -/
def assignLoop (t : Traits α) (p : Option Nat) : Nat → List (Src α) → M α Unit
  | _, [] => return ()
  | i, x :: xs => do
    assignAt t p i x
    assignLoop t p (i + 1) xs

/-- `assign(n, value)` (vector.hpp 771-792). -/
def assignFill (t : Traits α) (n : Nat) (src0 : Src α) : M α Unit := do
  let src ← asVT t src0
  let v ← self
  if v.z < n then
    if isInternal v src then
      let copy ← copyOf t src
      resetTo t n
      appendE t (List.replicate n copy)
    else
      resetTo t n
      appendE t (List.replicate n src)
  else if n ≤ v.e then
    assignLoop t v.b 0 (List.replicate n src)
    destroyRangeE t n
  else
    assignLoop t v.b 0 (List.replicate v.e src)
    appendE t (List.replicate (n - v.e) src)

/-- `assign(first, last)` for forward iterators (vector.hpp 824-837). -/
def assignForward (t : Traits α) (xs : List (Src α)) : M α Unit := do
  let v ← self
  if v.z < xs.length then
    resetTo t xs.length
    appendE t xs
  else if xs.length ≤ v.e then
    assignLoop t v.b 0 xs
    destroyRangeE t xs.length
  else
    assignLoop t v.b 0 (xs.take v.e)
    appendE t (xs.drop v.e)

/-- `emplace_back(*first)` for the rest of the input (vector.hpp 810, 851). -/
def pushAll (t : Traits α) : List (Src α) → M α Unit
  | [] => return ()
  | x :: xs => do
    pushBack t x
    pushAll t xs

/-- The first loop of `assign` for input iterators (vector.hpp 841-844): the number of elements
assigned. -/
def assignSome (t : Traits α) (p : Option Nat) (e : Nat) : Nat → List (Src α) → M α (Nat × List (Src α))
  | i, [] => return (i, [])
  | i, x :: xs =>
    if i ≠ e then do
      assignAt t p i x
      assignSome t p e (i + 1) xs
    else return (i, x :: xs)

/-- `assign(first, last)` for input iterators (vector.hpp 839-852). -/
def assignInput (t : Traits α) (xs : List (Src α)) : M α Unit := do
  let v ← self
  let (p, rest) ← assignSome t v.b v.e 0 xs
  if p ≠ v.e then destroyRangeE t p
  else pushAll t rest

/-- `std::copy` with moving iterators to a lower address (vector.hpp 1228-1230). -/
def moveDown (t : Traits α) (p : Option Nat) (dst src : Nat) : Nat → M α Unit
  | 0 => return ()
  | n + 1 => do
    moveAssign t p dst p src
    moveDown t p (dst + 1) (src + 1) n

/-- `std::copy_backward` with moving iterators: the `n` objects before `src` to the place
before `dst`. -/
def moveUp (t : Traits α) (p : Option Nat) (dst src : Nat) : Nat → M α Unit
  | 0 => return ()
  | n + 1 => do
    moveAssign t p (dst - 1) p (src - 1)
    moveUp t p (dst - 1) (src - 1) n

/-- `erase(first, last)` (vector.hpp 1204-1238). The result is the position `first`. -/
def erase (t : Traits α) (first last : Nat) : M α Nat := do
  let v ← self
  if first ≤ v.e ∧ last ≤ v.e ∧ first ≤ last then
    if first ≠ last then
      if last = v.e then destroyRangeE t first
      else if t.bits then
        destroyRange t v.b first last
        if v.e - last ≤ last - first then memcpy v.b first v.b last (v.e - last)
        else memmove v.b first v.b last (v.e - last)
        setVec { v with e := v.e - (last - first) }
      else
        moveDown t v.b first last (v.e - last)
        destroyRangeE t (v.e - (last - first))
    return first
  else ub

/-- `computeInsertCapacity` (vector.hpp 1245-1249). -/
def insertCap (t : Traits α) (v : Vec) (n : Nat) : Nat := capOf t (max (pushCap t v.z) (v.e + n))

/-- `make_window` (vector.hpp 1299-1332). -/
def makeWindow (t : Traits α) (pos n : Nat) : M α Unit := do
  let v ← self
  let tail := v.e - pos
  if tail ≤ n then
    relocateMove t v.b (pos + n) v.b pos tail
    relocateDone t v.b pos tail
    setVec { v with e := v.e + n }
  else if t.bits then
    memmove v.b (pos + n) v.b pos tail
    setVec { v with e := v.e + n }
  else
    uninitMove t v.b v.e v.b (v.e - n) n
    guarded (moveUp t v.b v.e (v.e - n) (v.e - n - pos))
      (do destroyRange t v.b (v.e - n) (v.e + n)
          setVec { v with e := v.e - n })
    setVec { v with e := v.e + n }
    destroyRange t v.b pos (pos + n)

/-- `undo_window` (vector.hpp 1334-1337). -/
def undoWindow (t : Traits α) (pos n : Nat) : M α Unit := do
  let v ← self
  destroyRange t v.b (pos + n) v.e
  setVec { v with e := pos }

/-- `wrap_frame` (vector.hpp 1342-1356). -/
def wrapFrame (t : Traits α) (ledge : Option Nat) (idx n : Nat) : M α Unit := do
  let v ← self
  if idx ≤ v.e ∧ n ≠ 0 then
    relocateMove t ledge 0 v.b 0 idx
    guarded (relocateMove t ledge (idx + n) v.b idx (v.e - idx)) (relocateUndo t ledge 0 v.b 0 idx)
    relocateDone t v.b 0 idx
    relocateDone t v.b idx (v.e - idx)
  else ub

/-- `do_real_insert` (vector.hpp 1385-1462) with `insert_use_fresh` (1361-1377) inside. `pos` is the
position `cpos`; the result is the position of the first new element. -/
def doRealInsert (t : Traits α) (pos n : Nat) (internal : Bool) (insertInternal : M α Nat)
    (construct : Option Nat → Nat → M α Unit) (destroyNew : Option Nat → Nat → M α Unit) : M α Nat := do
  let v ← self
  if n = 0 then return pos
  else
    let atEnd := pos == v.e
    let isFresh := decide (v.z < v.e + n)
    if !atEnd && (!isFresh && internal) then insertInternal
    else if v.e < pos then ub
    else if isFresh then
      let newCap := insertCap t v n
      let b ← alloc t newCap
      guarded (construct (some b) pos) (dealloc t (some b) newCap)
      guarded (wrapFrame t (some b) pos n)
        (do destroyNew (some b) pos
            dealloc t (some b) newCap)
      if v.b.isSome then dealloc t v.b v.z
      setVec ⟨some b, v.e + n, newCap⟩
      return pos
    else
      if !atEnd then makeWindow t pos n
      else setVec { v with e := v.e + n }
      guarded (construct v.b pos)
        (if !atEnd then undoWindow t pos n
         else do
          let w ← self
          setVec { w with e := w.e - n })
      return pos

/-- `emplace` (vector.hpp 1465-1473). -/
def emplace (t : Traits α) (pos : Nat) (src : Src α) : M α Nat :=
  doRealInsert t pos 1 false (return 0) (fun b i => build t b i src) (fun b i => destroy t b i)

/-- `insert(cpos, value)` (vector.hpp 1475-1493). -/
def insertOne (t : Traits α) (pos : Nat) (src : Src α) : M α Nat := do
  let v ← self
  doRealInsert t pos 1 (isInternal v src)
    (do
      let temp ← copyOf t src
      doRealInsert t pos 1 false ub (fun b i => build t b i temp) (fun b i => destroy t b i))
    (fun b i => build t b i src) (fun b i => destroy t b i)

/-- `insert(cpos, n, value)` (vector.hpp 1495-1503). -/
def insertFill (t : Traits α) (pos n : Nat) (src0 : Src α) : M α Nat := do
  let src ← asVT t src0
  let v ← self
  doRealInsert t pos n (isInternal v src)
    (do
      let temp ← copyOf t src
      doRealInsert t pos n false ub (fun b i => buildLoop t b i 0 (List.replicate n temp))
        (fun b i => destroyRange t b i (i + n)))
    (fun b i => buildLoop t b i 0 (List.replicate n src)) (fun b i => destroyRange t b i (i + n))

/-- `insert(cpos, first, last)` for forward iterators (vector.hpp 1516-1526). -/
def insertForward (t : Traits α) (pos : Nat) (xs : List (Src α)) : M α Nat :=
  doRealInsert t pos xs.length false (return 0) (fun b i => buildLoop t b i 0 xs)
    (fun b i => destroyRange t b i (i + xs.length))

/-- `insert(cpos, first, last)` with moving iterators over another vector's buffer. -/
def insertMoved (t : Traits α) (pos : Nat) (q : Option Nat) (n : Nat) : M α Nat :=
  doRealInsert t pos n false (return 0) (fun b i => uninitMove t b i q 0 n)
    (fun b i => destroyRange t b i (i + n))

/-- `insert(cpos, first, last)` for input iterators (vector.hpp 1528-1544): the local vector
`storage` holds the elements from `cpos` on meanwhile. -/
def insertInput (t : Traits α) (pos : Nat) (xs : List (Src α)) : M α Nat := do
  let v ← self
  if v.e < pos then ub
  else
    let n := v.e - pos
    let cap := capOf t n
    if n = 0 then
      destroyRangeE t pos
      pushAll t xs
      return pos
    else
      let q ← alloc t cap
      guarded (uninitMove t (some q) 0 v.b pos n) (dealloc t (some q) cap)
      finally_
        (do
          destroyRangeE t pos
          pushAll t xs
          let w ← self
          let _ ← insertMoved t w.e (some q) n)
        (do
          destroyRange t (some q) 0 n
          dealloc t (some q) cap)
      return pos

/-- `std::remove_if`: `r` is the place for the next element to keep, `i` the element looked at. -/
def removeLoop (t : Traits α) (bad : α → Bool) (p : Option Nat) : Nat → Nat → Nat → M α Nat
  | r, _, 0 => return r
  | r, i, n + 1 => do
    let a ← get p i
    if bad a then removeLoop t bad p r (i + 1) n
    else if r = i then removeLoop t bad p (r + 1) (i + 1) n
    else do
      moveAssign t p r p i
      removeLoop t bad p (r + 1) (i + 1) n

/-- `erase(v, value)`, `erase_if(v, predicate)` (vector.hpp 1636-1645). -/
def eraseIf (t : Traits α) (bad : α → Bool) : M α Unit := do
  let v ← self
  let r ← removeLoop t bad v.b 0 0 v.e
  let _ ← erase t r v.e

/-- `operator[]` (vector.hpp 1018-1025). -/
def index (i : Nat) : M α α := do
  let v ← self
  if i < v.e then get v.b i else ub

/-- `at` (vector.hpp 1026-1035). -/
def at_ (i : Nat) : M α α := do
  let v ← self
  if v.e ≤ i then throw .range else index i

/-- `front`, `back` (vector.hpp 1036-1051). -/
def front : M α α := do
  let v ← self
  if v.e = 0 then ub else get v.b 0

/-- `back` (vector.hpp 1041-1048). -/
def back : M α α := do
  let v ← self
  if v.e = 0 then ub else get v.b (v.e - 1)

/-- `vector(n)` (vector.hpp 674-677), after `vector()`. A constructor that throws destroys `impl_`
(its destructor is `Impl::destroy`, 145). -/
def newSized (t : Traits α) (n : Nat) : M α Unit := do
  init t n
  guarded (appendE t (List.replicate n (fresh t))) (reset t)

/-- `vector(n, value)` (vector.hpp 679-682). -/
def newFill (t : Traits α) (n : Nat) (src0 : Src α) : M α Unit := do
  let src ← asVT t src0
  init t n
  guarded (appendE t (List.replicate n src)) (reset t)

/-- `vector(first, last)` for forward iterators (vector.hpp 684-686, 800-804). -/
def newForward (t : Traits α) (xs : List (Src α)) : M α Unit := do
  init t xs.length
  guarded (appendE t xs) (reset t)

/-- `vector(first, last)` for input iterators (vector.hpp 806-812). -/
def newInput (t : Traits α) (xs : List (Src α)) : M α Unit := do
  setVec ⟨none, 0, 0⟩
  guarded (pushAll t xs) (reset t)

/-- `vector(const vector& other)` (vector.hpp 688-691). -/
def newCopy (t : Traits α) (o : Vec) : M α Unit := do
  init t o.e
  guarded (appendCopyE t o.b 0 o.e) (reset t)

/-- `operator=(const vector&)` (vector.hpp 731-747) of different vectors with equal allocators:
`assign(other.begin(), other.end())` (824-837). -/
def copyAssign (t : Traits α) (o : Vec) : M α Unit := do
  let v ← self
  if v.z < o.e then
    resetTo t o.e
    appendCopyE t o.b 0 o.e
  else if o.e ≤ v.e then
    assignLoop t v.b 0 (refs o.b 0 o.e)
    destroyRangeE t o.e
  else
    assignLoop t v.b 0 (refs o.b 0 v.e)
    appendCopyE t o.b v.e (o.e - v.e)

end Gtl.Vec
