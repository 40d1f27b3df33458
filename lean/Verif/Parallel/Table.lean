import Verif.Swiss.World
import Verif.Spec.Parallel
/-!
# Model of `parallel_hash_set` / `parallel_hash_map` used from one thread (phmap.hpp:3180-4695)

A parallel container is an array of `2^N` hash tables. The locks are modelled in `Verif.Conc.Guards` and
`Verif.Conc.Container`; here only two things of them are visible to a single thread: with a shared mutex `erase`
looks the key up twice, and locking the same mutex twice is undefined behaviour.
-/

namespace Gtl.Parallel

open Gtl.Swiss
open Gtl.Spec (Op POp PWOp Resp put)

/-- The three families of mutexes (phmap.hpp:536-660): `NullMutex`; generic ones such as `std::mutex`, for which
every lock is exclusive; and `std::shared_mutex` (also absl, boost, srwlock), which has shared locks. -/
inductive Mtx where
  | null
  | excl
  | shared
  deriving DecidableEq, Repr

/-- Template parameters: `2^N` submaps, mutex type, and those of the submaps. -/
structure PCfg (α κ : Type) where
  C : Cfg α κ
  N : Nat
  mtx : Mtx

/-- `sets_` (phmap.hpp:4443). -/
structure PTbl (α : Type) where
  sets : List (Tbl α)

/-- `subidx` (phmap.hpp:4421) with `mask = 2^N - 1` (3194-3195). -/
def subidx (N hashval : Nat) : Nat := ((hashval >>> 8) ^^^ (hashval >>> 16) ^^^ (hashval >>> 24)) &&& (2 ^ N - 1)

/-- Loop over an array of submaps. -/
def mapRes {β γ : Type} (f : β → Res γ) : List β → Res (List γ)
  | [] => .ok []
  | b :: bs => do
    let c ← f b
    let cs ← mapRes f bs
    .ok (c :: cs)

/-- Loop over two arrays of submaps. -/
def zipRes {β β' γ : Type} (f : β → β' → Res γ) : List β → List β' → Res (List γ)
  | [], _ => .ok []
  | _ :: _, [] => .ub
  | b :: bs, b' :: bs' => do
    let c ← f b b'
    let cs ← zipRes f bs bs'
    .ok (c :: cs)

namespace PTbl
variable {α κ : Type} (P : PCfg α κ)

/-- Default constructor (phmap.hpp:3407-3409). -/
def empty : PTbl α := { sets := List.replicate (2 ^ P.N) Tbl.empty }

/-- Constructor with a bucket count: every submap gets it (phmap.hpp:3411-3420). -/
def withBuckets (n : Nat) : PTbl α := { sets := List.replicate (2 ^ P.N) (Tbl.withBuckets P.C n) }

/-- `sets_[i]`. -/
def sub (p : PTbl α) (i : Nat) : Res (Tbl α) := Res.ofOption p.sets[i]?

/-- Lock submap `i` and run `f` on it. -/
def withSub {β : Type} (p : PTbl α) (i : Nat) (f : Tbl α → Res (Tbl α × β)) : Res (PTbl α × β) := do
  let t ← p.sub i
  let (t, b) ← f t
  .ok ({ sets := p.sets.set i t }, b)

/-! ## Iteration -/

/-- An iterator: submap and position in it, `none` for `end()`. -/
abbrev It := Option (Nat × Nat)

/-- `iterator::skip_empty` (phmap.hpp:3337-3348). -/
def skipEmpty (p : PTbl α) : Nat → Nat → Nat → Res It
  | 0, _, _ => .hang
  | n + 1, i, pos => do
    let t ← p.sub i
    if pos = t.capacity then
      if i + 1 = p.sets.length then .ok none
      else do
        let u ← p.sub (i + 1)
        let b ← u.begin_ P.C
        skipEmpty p n (i + 1) b
    else .ok (some (i, pos))

/-- `begin()` (phmap.hpp:3544-3548). -/
def begin_ (p : PTbl α) : Res It := do
  let t ← p.sub 0
  let b ← t.begin_ P.C
  p.skipEmpty P (p.sets.length + 1) 0 b

/-- `operator*` (phmap.hpp:3304). -/
def deref (p : PTbl α) (it : Nat × Nat) : Res α := do
  let t ← p.sub it.1
  t.readSlot it.2

/-- `operator++` (phmap.hpp:3307-3312). -/
def next (p : PTbl α) (it : Nat × Nat) : Res It := do
  let t ← p.sub it.1
  let q ← t.next P.C it.2
  p.skipEmpty P (p.sets.length + 1) it.1 q

/-- More steps than an iteration takes. -/
def fuel (p : PTbl α) : Nat := (p.sets.map Tbl.fuel).sum + 1

/-- `for (it = b; it != end(); ++it) out.push_back(*it)`. -/
def collect (p : PTbl α) : Nat → It → Res (List α)
  | 0, _ => .hang
  | _ + 1, none => .ok []
  | n + 1, some it => do
    let a ← p.deref it
    let it' ← p.next P it
    let r ← collect p n it'
    .ok (a :: r)

/-- All elements in iteration order. -/
def iterate (p : PTbl α) : Res (List α) := do
  let b ← p.begin_ P
  p.collect P p.fuel b

/-- The elements `for_each` calls its callback with (phmap.hpp:3980-3985). -/
def forEach (p : PTbl α) : Res (List α) := do
  let ls ← mapRes (fun t => t.iterate P.C) p.sets
  .ok ls.flatten

/-- `_erase(it)` (phmap.hpp:4076-4079). -/
def eraseAt (p : PTbl α) (it : Nat × Nat) : Res (PTbl α) := do
  let t ← p.sub it.1
  let t ← t.eraseAt P.C it.2
  .ok { sets := p.sets.set it.1 t }

/-- Loop of `priv::erase_if` (phmap.hpp:5600-5606) with `erase(it)` (4084-4088): `_erase(it++)`. -/
def eraseIfLoop (pred : α → Bool) : Nat → PTbl α → It → Res (PTbl α)
  | 0, _, _ => .hang
  | _ + 1, p, none => .ok p
  | n + 1, p, some it => do
    let a ← p.deref it
    if pred a then do
      let nxt ← p.next P it
      let p ← p.eraseAt P it
      eraseIfLoop pred n p nxt
    else do
      let nxt ← p.next P it
      eraseIfLoop pred n p nxt

/-- `size()` (phmap.hpp:3558-3563). -/
def size (p : PTbl α) : Nat := (p.sets.map Tbl.size).sum

/-- `capacity()` (phmap.hpp:3565-3570). -/
def capacity (p : PTbl α) : Nat := (p.sets.map Tbl.capacity).sum

/-- `erase_if(c, pred)` (phmap.hpp:5597-5608). -/
def eraseIf (p : PTbl α) (pred : α → Bool) : Res (PTbl α × Nat) := do
  let b ← p.begin_ P
  let p' ← eraseIfLoop P pred p.fuel p b
  .ok (p', p.size - p'.size)

/-! ## Single-key operations: bodies that run under the lock of one submap -/

/-- `erase_if_impl` (phmap.hpp:3914-3934). `switch_to_unique()` is `true` for shared mutexes only; then the key is
looked up again. -/
def eraseKeyIf (t : Tbl α) (k : κ) (pred : α → Bool) : Res (Tbl α × Nat) := do
  match ← t.find P.C k with
  | none => .ok (t, 0)
  | some off =>
    let r ← if P.mtx = .shared then t.find P.C k else Res.ok (some off)
    match r with
    | none => .ok (t, 1)
    | some off => do
      let a ← t.readSlot off
      if pred a then do
        let t ← t.eraseAt P.C off
        .ok (t, 1)
      else .ok (t, 0)

/-- `modify_if_impl` (phmap.hpp:3888-3901): call `f` on the element if the key is there. Reports the element the
callback was called with. -/
def modifyKeyIf (t : Tbl α) (k : κ) (f : α → α) : Res (Tbl α × Option α) := do
  match ← t.find P.C k with
  | none => .ok (t, none)
  | some off => do
    let a ← t.readSlot off
    let t ← t.assignAt off f
    .ok (t, some a)

/-- `try_emplace_l` (phmap.hpp:4621-4640) and `lazy_emplace_l` without auxiliary container (3943-3969). Reports the
element found or created. -/
def emplaceL (t : Tbl α) (a : α) (f : α → α) : Res (Tbl α × α × Bool) := do
  let hashval := P.C.hash (P.C.key a)
  match ← t.findHash P.C (P.C.key a) hashval with
  | none => do
    let (t, off) ← t.prepareInsert P.C hashval
    let t ← t.constructSlot off a
    let t ← t.setCtrl P.C.G.W off (H2 hashval)
    .ok (t, a, true)
  | some off => do
    let b ← t.readSlot off
    let t ← t.assignAt off f
    .ok (t, b, false)

/-- `rehash(n)` (phmap.hpp:4140-4146). -/
def rehash (p : PTbl α) (n : Nat) : Res (PTbl α) := do
  let ts ← mapRes (fun t => t.rehash P.C (n / 2 ^ P.N)) p.sets
  .ok { sets := ts }

/-- `reserve(n)` (phmap.hpp:4148-4152). -/
def reserve (p : PTbl α) (n : Nat) : Res (PTbl α) :=
  let target := growthToLowerboundCapacity P.C.G.W n
  let normalized := 2 ^ P.N * normalizeCapacity (n / 2 ^ P.N)
  p.rehash P (if normalized > target then normalized else target)

/-- `clear()` (phmap.hpp:3574-3581). -/
def clear (p : PTbl α) : Res (PTbl α) := do
  let ts ← mapRes (fun t => t.clear P.C) p.sets
  .ok { sets := ts }

/-- `std::for_each(begin, end, f)` with a callback that assigns to the elements: `for (; it != end; ++it) f(*it)`. -/
def assignLoop (f : α → α) : Nat → Tbl α → Nat → Res (Tbl α)
  | 0, _, _ => .hang
  | n + 1, t, pos =>
    if pos = t.capacity then .ok t
    else do
      let t ← t.assignAt pos f
      let q ← t.next P.C pos
      assignLoop f n t q

/-- Body of the loop of `for_each_m` for one submap (phmap.hpp:3990-3991). -/
def assignAll (f : α → α) (t : Tbl α) : Res (Tbl α) := do
  let b ← t.begin_ P.C
  assignLoop P f t.fuel t b

/-- `for_each_m(f)` (phmap.hpp:3988-3993). -/
def forEachM (p : PTbl α) (f : α → α) : Res (PTbl α) := do
  let ts ← mapRes (assignAll P f) p.sets
  .ok { sets := ts }

/-- One operation of the ordinary interface. The single-key functions lock the submap of the key and run the code
of the ordinary table on it (`emplace_decomposable_with_hash` 3744-3758, `insert(node)` 3660-3671, `find` 4174-4193 and
4357-4362, `contains_impl` 4227-4232, `insert_or_assign_impl` 4675-4687, `try_emplace_impl_with_hash` 4695-4708,
`emplace_single_with_hash` 3838-3843, `extract(key)` 4121-4124). -/
def step (p : PTbl α) : Op α κ → Res (PTbl α × Resp α)
  | .insert a => p.withSub (subidx P.N (P.C.hash (P.C.key a))) (fun t => t.step P.C (.insert a))
  | .insertOrAssign a f =>
    p.withSub (subidx P.N (P.C.hash (P.C.key a))) (fun t => t.step P.C (.insertOrAssign a f))
  | .subscript a f => p.withSub (subidx P.N (P.C.hash (P.C.key a))) (fun t => t.step P.C (.subscript a f))
  | .at k => p.withSub (subidx P.N (P.C.hash k)) (fun t => t.step P.C (.at k))
  | .find k => p.withSub (subidx P.N (P.C.hash k)) (fun t => t.step P.C (.find k))
  | .contains k => p.withSub (subidx P.N (P.C.hash k)) (fun t => t.step P.C (.contains k))
  | .count k => do
    -- `count` is `contains(key) ? 1 : 0` (phmap.hpp:4163-4166)
    p.withSub (subidx P.N (P.C.hash k)) (fun t => do
      let b ← t.contains P.C k
      .ok (t, .nat (if b then 1 else 0)))
  | .erase k =>
    p.withSub (subidx P.N (P.C.hash k)) (fun t => do
      let (t, n) ← eraseKeyIf P t k (fun _ => true)
      .ok (t, .nat n))
  | .eraseIf pr => do
    let (p, n) ← p.eraseIf P pr
    .ok (p, .nat n)
  | .extract k => p.withSub (subidx P.N (P.C.hash k)) (fun t => t.step P.C (.extract k))
  | .insertNode none => .ok (p, .node none false none)
  | .insertNode (some a) =>
    p.withSub (subidx P.N (P.C.hash (P.C.key a))) (fun t => t.step P.C (.insertNode (some a)))
  | .toggle a => p.withSub (subidx P.N (P.C.hash (P.C.key a))) (fun t => t.step P.C (.toggle a))
  | .insertRange vs => do
    -- `insert(first, last)` (phmap.hpp:3645-3649) inserts one after the other
    let p ← vs.foldlM (fun p v => do
      let (p, _) ← p.withSub (subidx P.N (P.C.hash (P.C.key v))) (fun t => t.step P.C (.insert v))
      Res.ok p) p
    .ok (p, .unit)
  | .size => .ok (p, .nat p.size)
  | .clear => do
    let p ← p.clear P
    .ok (p, .unit)
  | .reserve n => do
    let p ← p.reserve P n
    .ok (p, .unit)
  | .rehash n => do
    let p ← p.rehash P n
    .ok (p, .unit)

/-- One operation, including those with callbacks. -/
def pstep (p : PTbl α) : POp α κ → Res (PTbl α × Resp α)
  | .base op => p.step P op
  | .ifContains k => p.withSub (subidx P.N (P.C.hash k)) (fun t => do
      let (t, o) ← modifyKeyIf P t k id
      .ok (t, .elem o))
  | .modifyIf k f => p.withSub (subidx P.N (P.C.hash k)) (fun t => do
      let (t, o) ← modifyKeyIf P t k f
      .ok (t, .elem o))
  | .eraseIfKey k pr => p.withSub (subidx P.N (P.C.hash k)) (fun t => do
      let (t, n) ← eraseKeyIf P t k pr
      .ok (t, .bool (n != 0)))
  | .emplaceL a f => p.withSub (subidx P.N (P.C.hash (P.C.key a))) (fun t => do
      let (t, b, ins) ← emplaceL P t a f
      .ok (t, .ins b ins))
  | .forEachM f => do
    let p ← p.forEachM P f
    .ok (p, .unit)

/-- Copy assignment (phmap.hpp:3529-3533); construction of a copy (3515-3519) is the same on an empty object. -/
def copyAssign (p that : PTbl α) : Res (PTbl α) := do
  let ts ← zipRes (fun t u => Tbl.copyAssign P.C t u) p.sets that.sets
  .ok { sets := ts }

/-- Move assignment (phmap.hpp:3535-3541); move construction (3524-3527) is the same on an empty object. -/
def moveAssign (p that : PTbl α) : Res (PTbl α × PTbl α) := do
  let ts ← zipRes (fun t u => Tbl.moveAssign t u) p.sets that.sets
  .ok ({ sets := ts.map Prod.fst }, { sets := ts.map Prod.snd })

/-- `merge(src)` (phmap.hpp:4101-4109): submap by submap. -/
def merge (p src : PTbl α) : Res (PTbl α × PTbl α) := do
  let ts ← zipRes (fun t u => Tbl.merge P.C t u) p.sets src.sets
  .ok ({ sets := ts.map Prod.fst }, { sets := ts.map Prod.snd })

/-- `swap(that)` (phmap.hpp:4127-4138). -/
def swap (p q : PTbl α) : Res (PTbl α × PTbl α) := do
  let ts ← zipRes (fun t u => Res.ok (Tbl.swap t u)) p.sets q.sets
  .ok ({ sets := ts.map Prod.fst }, { sets := ts.map Prod.snd })

/-- `std::equal` over the submaps (phmap.hpp:4275-4277), with early exit. -/
def beqSets [BEq α] : List (Tbl α) → List (Tbl α) → Res Bool
  | [], _ => .ok true
  | _ :: _, [] => .ub
  | t :: ts, u :: us => do
    let b ← Tbl.beqTbl P.C (· == ·) t u
    if b then beqSets ts us else .ok false

/-- One operation on a family of containers. Locking a submap twice (`swap`, `==` with itself and a real mutex) is
undefined; `merge` tests for it. -/
def wstep [BEq α] (w : Nat → PTbl α) : PWOp α κ → Res ((Nat → PTbl α) × Resp α)
  | .on i op => do
    let (p, r) ← (w i).pstep P op
    .ok (put w i p, r)
  | .create i n => do
    let (p, _) ← moveAssign (w i) (withBuckets P n)
    .ok (put w i p, .unit)
  | .copy i j => do
    let p ← copyAssign P (w i) (w j)
    .ok (put w i p, .unit)
  | .move i j =>
    if i = j then do
      -- each submap is move-assigned to itself: `tmp(std::move(that)); swap(tmp)` restores it
      let ts ← mapRes (fun t => do
        let (tmp, t) := Tbl.move t
        let (t, tmp) := Tbl.swap t tmp
        let _ ← tmp.destroySlots
        Res.ok t) (w i).sets
      .ok (put w i { sets := ts }, .unit)
    else do
      let (p, q) ← moveAssign (w i) (w j)
      .ok (put (put w j q) i p, .unit)
  | .swap i j =>
    if i = j ∧ P.mtx ≠ .null then .ub
    else do
      let (p, q) ← swap (w i) (w j)
      .ok (put (put w i p) j q, .unit)
  | .merge i j =>
    if i = j then .ok (w, .unit)
    else do
      let (p, q) ← merge P (w i) (w j)
      .ok (put (put w i p) j q, .unit)
  | .equal i j =>
    if i = j ∧ P.mtx ≠ .null then .ub
    else do
      let b ← beqSets P (w i).sets (w j).sets
      .ok (w, .bool b)

/-- A whole history. -/
def wrun [BEq α] (w : Nat → PTbl α) : List (PWOp α κ) → Res ((Nat → PTbl α) × List (Resp α))
  | [] => .ok (w, [])
  | op :: ops => do
    let (w, r) ← wstep P w op
    let (w, rs) ← wrun w ops
    .ok (w, r :: rs)

end PTbl
end Gtl.Parallel
