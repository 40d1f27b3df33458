import Verif.Lru.Model
import Verif.Memo.LruModel
import Verif.Conc.Container
/-!
# Model of `lru_cache_impl` and `mt_memoize_lru` used from many threads (lru_cache.hpp:24-105, memoize.hpp:174-263)

One shared object per submap: the submap, its list and a number for the next list node. Every call is one critical
section on the submap of its key; what happens inside is the code of `Verif.Lru.Model` and `Verif.Memo.LruModel`, cut into
atomic actions in an arbitrary way. `_max_size` does not change: `set_cache_size` writes it without a lock. `size()` takes
no locks and `reserve` is left out.
-/

namespace Gtl.Lru

open Gtl.Swiss Gtl.Parallel Gtl.Conc
open Gtl.Spec.Lru (Resp)

variable {κ ν : Type} (L : LCfg κ)

/-- A submap with its list; list nodes of this submap have numbers below `next`. -/
structure Cell (κ ν : Type) where
  sub : Sub κ ν
  next : Nat

/-- The calls that may be made concurrently on a cache. -/
inductive COp (κ ν : Type) where
  | insert (k : κ) (v : ν)
  | get (k : κ)
  | exists (k : κ)
  deriving DecidableEq

/-- The key of the call. -/
def COp.key : COp κ ν → κ
  | .insert k _ => k
  | .get k => k
  | .exists k => k

/-- The same call in a sequential history. -/
def COp.seq : COp κ ν → Spec.Lru.Op κ ν
  | .insert k v => .insert k v
  | .get k => .get k
  | .exists k => .exists k

/-- What the call does to the submap of its key between taking and releasing the lock (lru_cache.hpp:59-95). -/
def callSec (max : Nat) (o : COp κ ν) (c : Cell κ ν) : Res (Cell κ ν × Resp ν) :=
  match o with
  | .insert k v => do
    let s ← c.sub.insert L max c.next k v
    .ok ({ sub := s, next := c.next + 1 }, .unit)
  | .get k => do
    let (s, o) ← c.sub.get L k
    .ok ({ c with sub := s }, .val o)
  | .exists k => do
    let (s, b) ← c.sub.exists L k
    .ok ({ c with sub := s }, .bool b)

/-- The calls that change nothing. `get` moves the entry it finds to the front of the list (lru_cache.hpp:66). -/
def COp.isConst : COp κ ν → Bool
  | .exists _ => true
  | _ => false

/-- The lock the call takes: `get` and `exists` use `if_contains`, which takes a `SharedLock` (phmap.hpp:3864-3868), the
same as a `UniqueLock` for mutexes without shared locks (540-549); `insert` uses `lazy_emplace_l`, which takes a
`UniqueLock` (3943-3969, 4397-4410). -/
def COp.mode (mtx : Mtx) : COp κ ν → Mode
  | .insert _ _ => .excl
  | _ => if mtx = .shared then .shared else .excl

/-- `c` is code for the call `o`: a critical section, cut into atomic actions in some way. -/
def CRuns (mtx : Mtx) (max : Nat) (o : COp κ ν) (c : Code (Cell κ ν) (Resp ν)) : Prop :=
  ∃ b, Does (L.shard o.key) o.isConst (callSec L max o) b ∧ c = .sec (L.shard o.key) (o.mode mtx) b .ret

/-- The submaps of a cache as shared objects; `next` is a number above those of all list nodes. -/
def cells (c : Cache κ ν) (next i : Nat) : Cell κ ν := ⟨(c.subs[i]?).getD ⟨Tbl.empty, []⟩, next⟩

/-- The cache made of the shared objects. -/
def ofCells (max : Nat) (A : Nat → Cell κ ν) : Cache κ ν := { subs := (List.range (2 ^ L.N)).map fun i => (A i).sub, max := max }

/-! ## One concrete cutting into atomic actions -/

/-- First half of `splice` (lru_cache.hpp:66, 79): take the node out of the list. -/
def unlink (it : Nat) (c : Cell κ ν) : Res (Cell κ ν × Node κ ν) :=
  match c.sub.lst.find? (fun n => n.1 == it) with
  | some n => .ok ({ c with sub := { c.sub with lst := c.sub.lst.filter (fun n => !(n.1 == it)) } }, n)
  | none => .ub

/-- Second half of `splice` (lru_cache.hpp:66, 79): put it in front. -/
def link (n : Node κ ν) (c : Cell κ ν) : Res (Cell κ ν × Unit) :=
  .ok ({ c with sub := { c.sub with lst := n :: c.sub.lst } }, ())

/-- `get` (lru_cache.hpp:63-70) action by action; `std::list::splice` takes two. -/
def getSteps (i : Nat) (k : κ) : Code (Cell κ ν) (Resp ν) :=
  look i (fun c => c.sub.tbl.find L.C k) fun r =>
    match r with
    | none => .ret (.val none)
    | some off =>
      look i (fun c => c.sub.tbl.readSlot off) fun e =>
      look i (fun c => deref c.sub.lst e.2) fun v =>
      prim i (unlink e.2) fun n =>
      prim i (link n) fun _ => .ret (.val (some v.2))

/-- The whole interface. -/
def callSteps (mtx : Mtx) (max : Nat) (o : COp κ ν) : Code (Cell κ ν) (Resp ν) :=
  .sec (L.shard o.key) (o.mode mtx) (match o with
    | .insert k v => prim (L.shard k) (callSec L max (.insert k v)) .ret
    | .get k => getSteps L (L.shard k) k
    | .exists k => look (L.shard k) (fun c => do let (_, b) ← c.sub.exists L k; .ok b) fun b => .ret (.bool b)) .ret

/-! ## `mt_memoize_lru` -/

/-- The calls that may be made concurrently on a memoized function. -/
inductive MOp (κ : Type) where
  | call (k : κ)
  | contains (k : κ)
  deriving DecidableEq

/-- The argument of the call. -/
def MOp.key : MOp κ → κ
  | .call k => k
  | .contains k => k

/-- The same call in a sequential history. -/
def MOp.seq : MOp κ → Spec.MemoLru.Op κ
  | .call k => .call k
  | .contains k => .contains k

/-- What the call does between taking and releasing the lock (memoize.hpp:212-245). The function is run inside the
section; it does not call the memoized function. -/
def memoSec (max : Nat) (f : κ → ν) (o : MOp κ) (c : Cell κ ν) : Res (Cell κ ν × Spec.MemoLru.Resp ν) :=
  match o with
  | .call k => do
    let (s, v, b) ← Memo.subCall L c.sub max c.next k (f k)
    .ok ({ sub := s, next := c.next + 1 }, .val v b)
  | .contains k => do
    let (s, o) ← c.sub.peek L k
    .ok ({ c with sub := s }, .opt o)

/-- `contains` changes nothing. -/
def MOp.isConst : MOp κ → Bool
  | .call _ => false
  | .contains _ => true

/-- `operator()` uses `lazy_emplace_l` (memoize.hpp:222), `contains` uses `if_contains` (214). -/
def MOp.mode (mtx : Mtx) : MOp κ → Mode
  | .call _ => .excl
  | .contains _ => if mtx = .shared then .shared else .excl

/-- `c` is code for the call `o`. -/
def MRuns (mtx : Mtx) (max : Nat) (f : κ → ν) (o : MOp κ) (c : Code (Cell κ ν) (Spec.MemoLru.Resp ν)) : Prop :=
  ∃ b, Does (L.shard o.key) o.isConst (memoSec L max f o) b ∧ c = .sec (L.shard o.key) (o.mode mtx) b .ret

/-- The calls, each critical section being one action. -/
def memoSteps (mtx : Mtx) (max : Nat) (f : κ → ν) (o : MOp κ) : Code (Cell κ ν) (Spec.MemoLru.Resp ν) :=
  .sec (L.shard o.key) (o.mode mtx) (match o with
    | .call k => prim (L.shard k) (memoSec L max f (.call k)) .ret
    | .contains k => look (L.shard k) (fun c => do let (_, o) ← c.sub.peek L k; .ok o) fun o => .ret (.opt o)) .ret

end Gtl.Lru
