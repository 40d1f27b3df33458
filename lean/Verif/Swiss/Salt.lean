import Verif.Swiss.World
/-!
# Hash tables whose probe sequences depend on the address of the table (`GTL_NON_DETERMINISTIC`)

With `#define GTL_NON_DETERMINISTIC 1` (docs/hmap.md:44) the place at which the search for a key starts depends on the address of
the control bytes (phmap.hpp:842-848), so that the order of iteration differs from run to run. The address changes whenever the
table gets new storage, in the middle of a call that enlarges it, and it moves with the storage when containers are moved or
swapped. `Verif.Swiss.Table` models the other branch (phmap.hpp:850-854).

Here a table carries the address of its control bytes. What the allocator returns is arbitrary: `heap.fresh n` is the address
returned by the `n`-th allocation of the history, for an arbitrary function `fresh`. (Really, storage in use at the same time has
different addresses; nothing here depends on that.)
-/

namespace Gtl.Swiss

open Gtl.Spec (Op WOp Resp put)

/-- `HashSeed` (phmap.hpp:835-840). -/
def hashSeed (addr : Nat) : Nat := addr >>> 12

/-- `H1` under `GTL_NON_DETERMINISTIC` (phmap.hpp:844-848). -/
def saltedH1 (hashval addr : Nat) : Nat := (hashval >>> 7) ^^^ hashSeed addr

/-- The hash value whose unsalted `H1` (phmap.hpp:852) is the salted one of `hashval` and whose `H2` (856) is that of `hashval`
(`H1_salted`, `H2_salted`). Hash values are used only through `H1` (2926, in `probe`) and `H2`, so that the functions of
`Verif.Swiss.Table` with this value do what the code does with `hashval`. -/
def salted (addr hashval : Nat) : Nat := saltedH1 hashval addr <<< 7 ||| (hashval &&& 0x7F)

theorem H1_salted (addr hashval : Nat) : H1 (salted addr hashval) = saltedH1 hashval addr := by
  unfold H1 salted
  have h : (hashval &&& 0x7F) >>> 7 = 0 := by
    rw [show (0x7F : Nat) = 2 ^ 7 - 1 from rfl, Nat.and_two_pow_sub_one_eq_mod, Nat.shiftRight_eq_div_pow]
    omega
  rw [Nat.shiftRight_or_distrib, Nat.shiftLeft_shiftRight, h, Nat.or_zero]

theorem H2_salted (addr hashval : Nat) : H2 (salted addr hashval) = H2 hashval := by
  unfold H2 salted
  congr 1
  apply Nat.eq_of_testBit_eq
  intro i
  rw [show (0x7F : Nat) = 2 ^ 7 - 1 from rfl]
  simp only [Nat.testBit_and, Nat.testBit_or, Nat.testBit_shiftLeft, Nat.testBit_two_pow_sub_one]
  by_cases h : i < 7
  · simp [h, show ¬ 7 ≤ i by omega]
  · simp [h]

/-- The addresses: of the static `EmptyGroup()` (phmap.hpp:823-832) and of the storage each allocation returns
(`initialize_slots`, phmap.hpp:2634-2644). -/
structure Addrs where
  none : Nat
  fresh : Nat → Nat

/-- The table and the address in `ctrl_` (phmap.hpp:2992). -/
structure STbl (α : Type) where
  addr : Nat
  tbl : Tbl α

namespace STbl
variable {α κ : Type} (C : Cfg α κ) (H : Addrs)

/-- The template parameters as they act on a table whose control bytes are at `addr`. -/
def cfg (addr : Nat) : Cfg α κ := { C with hash := fun k => salted addr (C.hash k) }

/-- `raw_hash_set()` (phmap.hpp:1703-1707). -/
def empty : STbl α := { addr := H.none, tbl := Tbl.empty }

/-- `resize` (phmap.hpp:2670-2692): `initialize_slots` sets `ctrl_` (2675) before the elements are placed (2681). The number is
that of the next allocation, here and below. -/
def resize (s : STbl α) (n newCap : Nat) : Res (STbl α × Nat) := do
  let t ← s.tbl.resize (cfg C (H.fresh n)) newCap
  .ok ({ addr := H.fresh n, tbl := t }, n + 1)

/-- `rehash_and_grow_if_necessary` (phmap.hpp:2759-2769); `drop_deletes_without_resize` keeps the storage. -/
def rehashAndGrow (s : STbl α) (n : Nat) : Res (STbl α × Nat) :=
  if s.tbl.capacity = 0 then s.resize C H n 1
  else if s.tbl.size ≤ capacityToGrowth C.G.W s.tbl.capacity / 2 then do
    let t ← s.tbl.dropDeletes (cfg C s.addr)
    .ok ({ s with tbl := t }, n)
  else s.resize C H n (s.tbl.capacity * 2 + 1)

/-- `prepare_insert` (phmap.hpp:2867-2881): the second search (2876) uses the new address. -/
def prepareInsert (s : STbl α) (n hashval : Nat) : Res (STbl α × Nat × Nat) := do
  let target ← s.tbl.findFirstNonFull (cfg C s.addr) (salted s.addr hashval)
  let c ← s.tbl.ctrlAt target
  let (s, target, n) ←
    if s.tbl.growthLeft = 0 ∧ ¬ isDeleted c then do
      let (s, n) ← s.rehashAndGrow C H n
      let target ← s.tbl.findFirstNonFull (cfg C s.addr) (salted s.addr hashval)
      Res.ok (s, target, n)
    else Res.ok (s, target, n)
  let c ← s.tbl.ctrlAt target
  .ok ({ s with tbl := { s.tbl with size := s.tbl.size + 1
                                    growthLeft := usub s.tbl.growthLeft (if isEmpty c then 1 else 0) } }, target, n)

/-- What follows `prepare_insert`: the element is constructed and its control byte written (phmap.hpp:2547-2548, 3145-3146,
2215-2216). -/
def finish (s : STbl α) (off hashval : Nat) (a : α) : Res (STbl α) := do
  let t ← s.tbl.constructSlot off a
  let t ← t.setCtrl C.G.W off (H2 hashval)
  .ok { s with tbl := t }

/-- `emplace` (phmap.hpp:2543-2552, 2571-2588, 3154-3167). -/
def emplace (s : STbl α) (n : Nat) (a : α) : Res (STbl α × Nat × Bool × Nat) := do
  let hashval := C.hash (C.key a)
  match ← s.tbl.findHash (cfg C s.addr) (C.key a) (salted s.addr hashval) with
  | some off => .ok (s, off, false, n)
  | none => do
    let (s, off, n) ← s.prepareInsert C H n hashval
    let s ← s.finish C off hashval a
    .ok (s, off, true, n)

/-- `insert_or_assign_impl` (phmap.hpp:3140-3151). -/
def insertOrAssign (s : STbl α) (n : Nat) (a : α) (f : α → α) : Res (STbl α × Nat × Bool × Nat) := do
  let hashval := C.hash (C.key a)
  match ← s.tbl.findHash (cfg C s.addr) (C.key a) (salted s.addr hashval) with
  | none => do
    let (s, off, n) ← s.prepareInsert C H n hashval
    let s ← s.finish C off hashval a
    .ok (s, off, true, n)
  | some off => do
    let t ← s.tbl.assignAt off f
    .ok ({ s with tbl := t }, off, false, n)

/-- `emplace_single_with_hash` (phmap.hpp:2210-2219). -/
def emplaceSingle (s : STbl α) (n : Nat) (a : α) : Res (STbl α × Nat) := do
  let hashval := C.hash (C.key a)
  match ← s.tbl.findHash (cfg C s.addr) (C.key a) (salted s.addr hashval) with
  | some off => do
    let t ← s.tbl.eraseAt (cfg C s.addr) off
    .ok ({ s with tbl := t }, n)
  | none => do
    let (s, off, n) ← s.prepareInsert C H n hashval
    let s ← s.finish C off hashval a
    .ok (s, n)

/-- `destroy_slots` (phmap.hpp:2646-2668): `ctrl_` is `EmptyGroup()` again (2663), unless there was nothing to free (2647). -/
def destroySlots (s : STbl α) : Res (STbl α) := do
  let t ← s.tbl.destroySlots
  .ok { addr := if s.tbl.capacity = 0 then s.addr else H.none, tbl := t }

/-- `rehash(n)` (phmap.hpp:2338-2353). -/
def rehash (s : STbl α) (n m : Nat) : Res (STbl α × Nat) :=
  if m = 0 ∧ s.tbl.capacity = 0 then .ok (s, n)
  else if m = 0 ∧ s.tbl.size = 0 then do
    let s ← s.destroySlots H
    .ok (s, n)
  else
    let cap := normalizeCapacity (max m s.tbl.size)
    if m = 0 ∨ cap > s.tbl.capacity then s.resize C H n cap else .ok (s, n)

/-- `reserve(n)` (phmap.hpp:2355). -/
def reserve (s : STbl α) (n m : Nat) : Res (STbl α × Nat) := s.rehash C H n (growthToLowerboundCapacity C.G.W m)

/-- The loop of `insert(first, last)` (phmap.hpp:2010-2011). -/
def insertAll (s : STbl α) (n : Nat) : List α → Res (STbl α × Nat)
  | [] => .ok (s, n)
  | v :: vs => do
    let (s, _, _, n) ← s.emplace C H n v
    insertAll s n vs

/-- `insert(first, last)` for random access ranges (phmap.hpp:2007-2012). -/
def insertRange (s : STbl α) (n : Nat) (vs : List α) : Res (STbl α × Nat) := do
  let (s, n) ← s.reserve C H n (s.tbl.size + vs.length)
  s.insertAll C H n vs

/-- `insert(node)` (phmap.hpp:2029-2044; `Tbl.insertNode`). -/
def insertNode (s : STbl α) (n : Nat) (node : Option α) : Res (STbl α × Option Nat × Bool × Option α × Nat) :=
  match node with
  | none => .ok (s, none, false, none, n)
  | some a => do
    let (s, off, ins, n) ← s.emplace C H n a
    .ok (s, some off, ins, if ins then none else some a, n)

/-- One call. Those that allocate nothing are `Tbl.step` with the address the table has. -/
def step (s : STbl α) (n : Nat) : Op α κ → Res (STbl α × Nat × Resp α)
  | .insert a => do
    let (s, off, ins, n) ← s.emplace C H n a
    let b ← s.tbl.readSlot off
    .ok (s, n, .ins b ins)
  | .insertOrAssign a f => do
    let (s, off, ins, n) ← s.insertOrAssign C H n a f
    let b ← s.tbl.readSlot off
    .ok (s, n, .ins b ins)
  | .subscript a f => do
    let (s, off, _, n) ← s.emplace C H n a
    let b ← s.tbl.readSlot off
    let t ← s.tbl.assignAt off f
    .ok ({ s with tbl := t }, n, .elem (some b))
  | .insertNode node => do
    let (s, off, ins, left, n) ← s.insertNode C H n node
    match off with
    | none => .ok (s, n, .node none ins left)
    | some off => do
      let a ← s.tbl.readSlot off
      .ok (s, n, .node (some a) ins left)
  | .toggle a => do
    let (s, n) ← s.emplaceSingle C H n a
    .ok (s, n, .unit)
  | .insertRange vs => do
    let (s, n) ← s.insertRange C H n vs
    .ok (s, n, .unit)
  | .reserve m => do
    let (s, n) ← s.reserve C H n m
    .ok (s, n, .unit)
  | .rehash m => do
    let (s, n) ← s.rehash C H n m
    .ok (s, n, .unit)
  | op => do
    let (t, r) ← s.tbl.step (cfg C s.addr) op
    .ok ({ s with tbl := t }, n, r)

/-- Copy constructor (phmap.hpp:1817-1830): the elements are placed in storage of its own, if the source has any (1819). -/
def copy (that : STbl α) (n : Nat) : Res (STbl α × Nat) := do
  let (s, n) ← (empty H : STbl α).rehash C H n that.tbl.capacity
  let vs ← that.tbl.iterate C
  let t ← vs.foldlM (fun t v => do
    let hashval := C.hash (C.key v)
    let target ← t.findFirstNonFull (cfg C s.addr) (salted s.addr hashval)
    let t ← t.setCtrl C.G.W target (H2 hashval)
    t.constructSlot target v) s.tbl
  .ok ({ s with tbl := { t with size := that.tbl.size, growthLeft := usub t.growthLeft that.tbl.size } }, n)

/-- Move constructor (phmap.hpp:1832-1847): `ctrl_` is taken over (1835). Returns `(this, that)`. -/
def move (that : STbl α) : STbl α × STbl α := (that, empty H)

/-- `swap` (phmap.hpp:2310-2328): `ctrl_` is exchanged (2315). -/
def swap (a b : STbl α) : STbl α × STbl α := (b, a)

/-- `raw_hash_set(bucket_cnt)` (phmap.hpp:1709-1720). -/
def make (n buckets : Nat) : STbl α × Nat :=
  if buckets = 0 then (empty H, n)
  else ({ addr := H.fresh n, tbl := Tbl.withBuckets C buckets }, n + 1)

/-- Copy assignment (phmap.hpp:1871-1876). -/
def copyAssign (s that : STbl α) (n : Nat) : Res (STbl α × Nat) := do
  let (tmp, n) ← that.copy C H n
  let (s, tmp) := swap s tmp
  let _ ← tmp.destroySlots H
  .ok (s, n)

/-- `move_assign` (phmap.hpp:2825-2829). Returns `(this, that)`. -/
def moveAssign (s that : STbl α) : Res (STbl α × STbl α) := do
  let (tmp, that) := move H that
  let (s, tmp) := swap s tmp
  let _ ← tmp.destroySlots H
  .ok (s, that)

/-- Loop of `merge` (phmap.hpp:2283-2291): `(dst, src)`. -/
def mergeLoop : Nat → STbl α × STbl α → Nat → Nat → Res (STbl α × STbl α × Nat)
  | 0, _, _, _ => .hang
  | fuel + 1, (dst, src), p, n =>
    if p = src.tbl.capacity then .ok (dst, src, n)
    else do
      let a ← src.tbl.readSlot p
      let (dst, _, ins, n) ← dst.emplace C H n a
      let t ← if ins then do
          let t ← src.tbl.destroySlot p
          t.eraseMetaOnly C p
        else Res.ok src.tbl
      let nxt ← t.next C p
      mergeLoop fuel (dst, { src with tbl := t }) nxt n

/-- `merge(src)` (phmap.hpp:2283-2291). -/
def merge (dst src : STbl α) (n : Nat) : Res (STbl α × STbl α × Nat) := do
  let b ← src.tbl.begin_ C
  mergeLoop C H src.tbl.fuel (dst, src) b n

/-- `operator==` (phmap.hpp:2464-2475): the elements of one are looked for at the address of the other. -/
def equal [BEq α] (a b : STbl α) : Res Bool :=
  if a.tbl.size ≠ b.tbl.size then .ok false
  else
    let (outer, inner) := if a.tbl.capacity > b.tbl.capacity then (b, a) else (a, b)
    do
      let vs ← outer.tbl.iterate C
      Tbl.allIn (cfg C inner.addr) (· == ·) inner.tbl vs

/-- One call on a family of containers. -/
def wstep [BEq α] (w : Nat → STbl α) (n : Nat) : WOp α κ → Res ((Nat → STbl α) × Nat × Resp α)
  | .on i op => do
    let (s, n, r) ← (w i).step C H n op
    .ok (put w i s, n, r)
  | .create i m => do
    let (tmp, n) := make C H n m
    let (s, _) ← moveAssign H (w i) tmp
    .ok (put w i s, n, .unit)
  | .copy i j => do
    let (s, n) ← copyAssign C H (w i) (w j) n
    .ok (put w i s, n, .unit)
  | .move i j =>
    if i = j then do
      let (tmp, s) := move H (w i)
      let (s, tmp) := swap s tmp
      let _ ← tmp.destroySlots H
      .ok (put w i s, n, .unit)
    else do
      let (s, u) ← moveAssign H (w i) (w j)
      .ok (put (put w j u) i s, n, .unit)
  | .swap i j =>
    let (s, u) := swap (w i) (w j)
    .ok (put (put w i s) j u, n, .unit)
  | .merge i j => do
    let (s, u, n) ← merge C H (w i) (w j) n
    .ok (put (put w i s) j u, n, .unit)
  | .equal i j => do
    let b ← equal C (w i) (w j)
    .ok (w, n, .bool b)

/-- A history. -/
def wrun [BEq α] (w : Nat → STbl α) (n : Nat) : List (WOp α κ) → Res ((Nat → STbl α) × Nat × List (Resp α))
  | [] => .ok (w, n, [])
  | op :: ops => do
    let (w, n, r) ← wstep C H w n op
    let (w, n, rs) ← wrun w n ops
    .ok (w, n, r :: rs)

end STbl
end Gtl.Swiss
