import Verif.Conc.Multi
import Verif.Conc.Container
import Verif.Spec.Share
/-!
# Model of operations on whole parallel containers used from many threads (phmap.hpp:340-560, 3205-4280)

Containers are numbered; each submap of each container is a shared object with its own lock. The operations on a whole
container go through the submaps in order and hold the lock (or the locks of the two corresponding submaps) only while
they work on one submap. What happens inside a section is the code of `Verif.Parallel.Table` and `Verif.Swiss`, cut into
atomic actions in an arbitrary way.

The overloads of `for_each` and `for_each_m` with an execution policy (phmap.hpp:3997-4012) hand the submaps to worker threads.
The model has what a worker does with one submap as a call of its own (`visitPart`, `changePart`); which threads make these calls,
and in which order, is left open. Policies with which the standard library may interleave calls within one thread (`unseq`,
`par_unseq`) must not be used with code that takes locks and are excluded.

Not modelled: callbacks that call back into the container, `NullMutex`.
-/

namespace Gtl.Conc.Multi

open Gtl.Swiss Gtl.Parallel
open Gtl.Spec (Op POp Resp)
open Gtl.Spec.Share (Call Ans seen nothing)

variable {α κ : Type} (P : PCfg α κ)

/-- The number of submap `i` of container `c` among all shared objects. -/
def cell (c i : Nat) : Nat := c * 2 ^ P.N + i

/-- The mode of a `SharedLock`: for mutexes without shared locks it is an exclusive lock (phmap.hpp:540-549). -/
def readMode : Mode := if P.mtx = .shared then .shared else .excl

/-- `b` is one way of doing `f` by atomic actions while holding these locks. Nothing is said about states in which `f`
has no result. -/
def Does {σ β : Type} (ls : List (Nat × Mode)) (f : (Nat → σ) → Res ((Nat → σ) × β)) (b : Code σ β) : Prop :=
  b.Body ls ∧ ∀ A r, f A = .ok r → b.solo A = .ok r

/-- Code that works on one object. -/
def at1 {σ β : Type} (j : Nat) (f : σ → Res (σ × β)) (A : Nat → σ) : Res ((Nat → σ) × β) := do
  let (t, x) ← f (A j)
  .ok (upd A j t, x)

/-- Code that works on two objects. -/
def at2 {σ β : Type} (j j' : Nat) (f : σ → σ → Res (σ × σ × β)) (A : Nat → σ) : Res ((Nat → σ) × β) := do
  let (t, u, x) ← f (A j) (A j')
  .ok (upd (upd A j t) j' u, x)

/-- `for (auto& inner : sets_) { lock; body; }` for the submaps `i, i+1, ..`. -/
def each {σ : Type} (gs : Nat → List (List (Nat × Mode))) (rel : Nat → List (Nat × Mode)) (b : Nat → Code σ (Ans α))
    (done : List (Ans α) → Ans α) : Nat → Nat → List (Ans α) → Code σ (Ans α)
  | 0, _, xs => .ret (done xs)
  | n + 1, i, xs => .sec (gs i) (rel i) (b i) fun x => each gs rel b done n (i + 1) (xs ++ [x])

/-- `std::equal` over the submaps: stop at the first difference (phmap.hpp:4275-4277). -/
def eachEqual {σ : Type} (gs : Nat → List (List (Nat × Mode))) (rel : Nat → List (Nat × Mode)) (b : Nat → Code σ Bool) :
    Nat → Nat → Code σ (Ans α)
  | 0, _ => .ret (.one (.bool true))
  | n + 1, i => .sec (gs i) (rel i) (b i) fun x =>
      if x then eachEqual gs rel b n (i + 1) else .ret (.one (.bool false))

/-! ## What the sections do -/

/-- Body of the loop of `for_each` (phmap.hpp:3983), also the callback of `with_submap` (4020-4025). -/
def visitSub (t : Tbl α) : Res (Tbl α × Ans α) := do
  let l ← t.iterate P.C
  .ok (t, .elems l)

/-- Body of the loop of `for_each_m` (phmap.hpp:3992). -/
def changeSub (f : α → α) (t : Tbl α) : Res (Tbl α × Ans α) := do
  let t ← PTbl.assignAll P f t
  .ok (t, .one .unit)

/-- A callback of `with_submap_m` (phmap.hpp:4028-4033) that makes calls on the submap. -/
def scriptSub : List (Op α κ) → Tbl α → Res (Tbl α × List (Resp α))
  | [], t => .ok (t, [])
  | op :: ops, t => do
    let (t, r) ← t.step P.C op
    let (t, rs) ← scriptSub ops t
    .ok (t, r :: rs)

/-- Body of the loop of `clear()` (phmap.hpp:3579) and of `clear(submap_index)` (3587-3593). -/
def wipeSub (t : Tbl α) : Res (Tbl α × Ans α) := do
  let t ← t.clear P.C
  .ok (t, .one .unit)

/-- Body of the loop of `rehash` (phmap.hpp:4144). -/
def rehashSub (n : Nat) (t : Tbl α) : Res (Tbl α × Ans α) := do
  let t ← t.rehash P.C (n / 2 ^ P.N)
  .ok (t, .one .unit)

/-- Body of the loop of `merge` (phmap.hpp:4106). -/
def mergeSub (t u : Tbl α) : Res (Tbl α × Tbl α × Ans α) := do
  let (t, u) ← Tbl.merge P.C t u
  .ok (t, u, .one .unit)

/-- Body of the loop of `swap` (phmap.hpp:4136). -/
def swapSub (t u : Tbl α) : Res (Tbl α × Tbl α × Ans α) := .ok ((Tbl.swap t u).1, (Tbl.swap t u).2, .one .unit)

/-- `Inner::operator==` (phmap.hpp:3249). -/
def equalSub [BEq α] (t u : Tbl α) : Res (Tbl α × Tbl α × Bool) := do
  let b ← Tbl.beqTbl P.C (· == ·) t u
  .ok (t, u, b)

/-- The argument that `reserve(n)` passes to `rehash` (phmap.hpp:4148-4152). -/
def reserveArg (n : Nat) : Nat :=
  let target := growthToLowerboundCapacity P.C.G.W n
  let normalized := 2 ^ P.N * normalizeCapacity (n / 2 ^ P.N)
  if normalized > target then normalized else target

/-! ## Which locks they take -/

/-- `UniqueLock m(inner)` or `SharedLock m(inner)` (phmap.hpp:3980-3996). -/
def one (m : Mode) (c i : Nat) : List (List (Nat × Mode)) := [[(cell P c i, m)]]

/-- `UniqueLocks l(sets_[i], src.sets_[i])`: `std::lock` takes both (phmap.hpp:467-470, 4105). -/
def both (c d i : Nat) : List (List (Nat × Mode)) := [[(cell P c i, .excl), (cell P d i, .excl)]]

/-- `swap` takes its own lock, then the other (phmap.hpp:4134-4135). -/
def inTurn (c d i : Nat) : List (List (Nat × Mode)) := [[(cell P c i, .excl)], [(cell P d i, .excl)]]

/-- `SharedLocks l(*this, o)` (phmap.hpp:3249): two shared locks in turn (`ReadLocks`, 492-500), or `std::lock` if there
are no shared locks (`SharedLocks = WriteLocks`, 547). -/
def bothRead (c d i : Nat) : List (List (Nat × Mode)) :=
  if P.mtx = .shared then [[(cell P c i, .shared)], [(cell P d i, .shared)]] else both P c d i

/-- The code is a loop over all submaps, whose sections take the locks `gs i`, do `f i` and release `rel i`. -/
def Sweep (gs : Nat → List (List (Nat × Mode))) (rel : Nat → List (Nat × Mode))
    (f : Nat → (Nat → Tbl α) → Res ((Nat → Tbl α) × Ans α)) (done : List (Ans α) → Ans α) (code : Code (Tbl α) (Ans α)) : Prop :=
  ∃ b, (∀ i, i < 2 ^ P.N → Does (gs i).flatten (f i) (b i)) ∧ code = each gs rel b done (2 ^ P.N) 0 []

/-- The code is one section on submap `i` of container `c`. -/
def Single {β : Type} (m : Mode) (c i : Nat) (f : Tbl α → Res (Tbl α × β)) (done : β → Ans α) (code : Code (Tbl α) (Ans α)) :
    Prop :=
  ∃ b, Does [(cell P c i, m)] (at1 (cell P c i) f) b ∧ code = .sec (one P m c i) [(cell P c i, m)] b fun x => .ret (done x)

/-- `code` is code for the call: its critical sections, cut into atomic actions in some way. -/
def CodeFor [BEq α] (o : Call α κ) (code : Code (Tbl α) (Ans α)) : Prop :=
  match o with
  | .on c o => match P.mtx, eraseArgs o with
    | .shared, some (k, pr, rep) =>
      -- phmap.hpp:3911-3934, see `Verif.Conc.Container`
      ∃ (look : Code (Tbl α) Bool) (again : Code (Tbl α) Nat),
        Does [(cell P c (submap P o), .shared)] (at1 (cell P c (submap P o)) (eraseLook P k)) look ∧
        Does [(cell P c (submap P o), .excl)] (at1 (cell P c (submap P o)) (eraseAgain P k pr)) again ∧
        code = .sec (one P .shared c (submap P o)) [(cell P c (submap P o), .shared)] look fun found =>
          if found then .sec (one P .excl c (submap P o)) [(cell P c (submap P o), .excl)] again fun n => .ret (.one (rep n))
          else .ret (.one (rep 0))
    | _, _ => Single P (lockMode P o) c (submap P o) (body P o) .one code
  | .forEach c =>
    Sweep P (one P (readMode P) c) (fun i => [(cell P c i, readMode P)]) (fun i => at1 (cell P c i) (visitSub P)) seen code
  | .forEachM c f =>
    Sweep P (one P .excl c) (fun i => [(cell P c i, .excl)]) (fun i => at1 (cell P c i) (changeSub P f)) nothing code
  | .withSubmap c i => Single P (readMode P) c i (visitSub P) id code
  | .withSubmapM c i ops => Single P .excl c i (scriptSub P ops) .many code
  | .clear c => Sweep P (one P .excl c) (fun i => [(cell P c i, .excl)]) (fun i => at1 (cell P c i) (wipeSub P)) nothing code
  | .clearSubmap c i => Single P .excl c i (wipeSub P) id code
  -- phmap.hpp:4000-4001
  | .visitPart c i => Single P (readMode P) c i (visitSub P) id code
  -- phmap.hpp:4008-4009
  | .changePart c i f => Single P .excl c i (changeSub P f) id code
  | .rehash c n =>
    Sweep P (one P .excl c) (fun i => [(cell P c i, .excl)]) (fun i => at1 (cell P c i) (rehashSub P n)) nothing code
  | .reserve c n =>
    Sweep P (one P .excl c) (fun i => [(cell P c i, .excl)]) (fun i => at1 (cell P c i) (rehashSub P (reserveArg P n))) nothing code
  | .merge c d =>
    -- `~WriteLocks` releases the first, then the second (phmap.hpp:477-480)
    Sweep P (both P c d) (fun i => [(cell P c i, .excl), (cell P d i, .excl)]) (fun i => at2 (cell P c i) (cell P d i) (mergeSub P))
      nothing code
  | .swap c d =>
    -- the guards are destroyed in reverse order
    Sweep P (inTurn P c d) (fun i => [(cell P d i, .excl), (cell P c i, .excl)]) (fun i => at2 (cell P c i) (cell P d i) swapSub)
      nothing code
  | .equal c d =>
    ∃ b : Nat → Code (Tbl α) Bool, (∀ i, i < 2 ^ P.N → Does (bothRead P c d i).flatten (at2 (cell P c i) (cell P d i) (equalSub P)) (b i)) ∧
      code = eachEqual (bothRead P c d) (fun i => [(cell P c i, readMode P), (cell P d i, readMode P)]) b (2 ^ P.N) 0

/-- Which calls may be made concurrently: for those about one key as in `Verif.Conc.Container`, the others all. -/
def Threadsafe : Call α κ → Prop
  | .on _ o => Concurrent o
  | _ => True

/-- The submaps of a family of containers as shared objects. -/
def cells (p : Nat → PTbl α) (j : Nat) : Tbl α := objects (p (j / 2 ^ P.N)) (j % 2 ^ P.N)

end Gtl.Conc.Multi
