import Verif.Base.Res
import Verif.Conc.Machine
/-!
# Model of the lock guards (phmap.hpp:174-517)

Any number of mutexes and guards, and an environment (other threads, or direct calls of `lock()`/`unlock()` on the
mutex). An operation that would block is reported as `hang`: it has not happened (yet). Releasing a mutex nobody holds and
using a null mutex pointer are undefined.
-/

namespace Gtl.Guards

open Gtl.Conc (Mode)

/-- The guard classes. -/
inductive Kind where
  /-- `WriteLock` (196-279) -/
  | write
  /-- `ReadLock` (281-363) -/
  | read
  /-- `ReadWriteLock` (365-460) -/
  | readWrite
  deriving DecidableEq

/-- A guard object. `m_`, `locked_`, `locked_shared_` (the latter only used by `ReadWriteLock`); `pair` is
`WriteLocks`/`ReadLocks` with `_m1`, `_m2` (462-517). -/
inductive Guard where
  | one (k : Kind) (m : Option Nat) (locked lockedShared : Bool)
  | pair (md : Mode) (m1 m2 : Nat)
  deriving DecidableEq

/-- Mutexes and guard objects. -/
structure W where
  /-- how often mutex `m` is held in a mode -/
  held : Nat → Mode → Nat
  /-- ghost: how often the environment holds it -/
  env : Nat → Mode → Nat
  /-- the guards; `none` after destruction -/
  gs : List (Option Guard)

/-- No guards, nothing held. -/
def init : W := { held := fun _ _ => 0, env := fun _ _ => 0, gs := [] }

/-- Change one counter. -/
def bump (f : Nat → Mode → Nat) (m : Nat) (md : Mode) (n : Nat) : Nat → Mode → Nat :=
  fun m' md' => if m' = m ∧ md' = md then n else f m' md'

/-- May the mutex be taken? -/
def free (w : W) (m : Nat) : Mode → Bool
  | .excl => w.held m .excl == 0 && w.held m .shared == 0
  | .shared => w.held m .excl == 0

/-- `m->lock()` / `m->lock_shared()`. -/
def acquire (w : W) (m : Nat) (md : Mode) : Res W :=
  if free w m md then .ok { w with held := bump w.held m md (w.held m md + 1) } else .hang

/-- `m->unlock()` / `m->unlock_shared()`. -/
def release (w : W) (m : Nat) (md : Mode) : Res W :=
  if w.held m md = 0 then .ub else .ok { w with held := bump w.held m md (w.held m md - 1) }

/-- `m->try_lock()` / `m->try_lock_shared()`; may fail for no reason (`luck = false`). -/
def tryAcquire (w : W) (m : Nat) (md : Mode) (luck : Bool) : Res (W × Bool) :=
  if free w m md && luck then .ok ({ w with held := bump w.held m md (w.held m md + 1) }, true) else .ok (w, false)

/-- The mode `locked_` stands for. -/
def Kind.mode : Kind → Mode
  | .write => .excl
  | .read => .shared
  | .readWrite => .excl

/-- What a program does with guards (phmap.hpp:198-517). -/
inductive Op where
  /-- default constructor (201-203, 286-288, 369-372) -/
  | default (k : Kind)
  /-- `Guard(m)` (205-209, 290-294, 374-379) -/
  | construct (k : Kind) (m : Nat)
  /-- `Guard(m, adopt_lock)` (211-213, 296-298) -/
  | adopt (k : Kind) (m : Nat)
  /-- `Guard(m, defer_lock)` (215-217, 300-302, 381-384) -/
  | defer (k : Kind) (m : Nat)
  /-- `Guard(m, try_to_lock)` (219-223, 304-308) -/
  | tryTo (k : Kind) (m : Nat) (luck : Bool)
  /-- `Guard(std::move(g_i))` (225-230, 310-315, 386-393) -/
  | moveCtor (i : Nat)
  /-- `g_i = std::move(g_j)` (232-236, 317-321, 395-399) -/
  | moveAssign (i j : Nat)
  /-- `g_i.swap(g_j)` (265-268, 350-353, 445-449) -/
  | swap (i j : Nat)
  /-- `g_i.lock()` (243-248, 328-333, 423-429) -/
  | lock (i : Nat)
  /-- `g_i.unlock()` (250-255, 335-340, 431-436) -/
  | unlock (i : Nat)
  /-- `g_i.lock_shared()` of `ReadWriteLock` (408-414) -/
  | lockShared (i : Nat)
  /-- `g_i.unlock_shared()` of `ReadWriteLock` (416-421) -/
  | unlockShared (i : Nat)
  /-- `g_i.try_lock()` (257-262, 342-347) -/
  | tryLock (i : Nat) (luck : Bool)
  /-- `g_i.switch_to_unique()` (272, 357, 453-458) -/
  | switch (i : Nat)
  /-- destructor (238-241, 323-326, 401-406, 478-481, 507-510) -/
  | destroy (i : Nat)
  /-- `WriteLocks(m1, m2)` / `ReadLocks(m1, m2)` (467-471, 495-500) -/
  | pair (md : Mode) (m1 m2 : Nat)
  /-- `WriteLocks(adopt_lock, m1, m2)` / `ReadLocks(adopt_lock, m1, m2)` (473-476, 502-505) -/
  | pairAdopt (md : Mode) (m1 m2 : Nat)
  /-- the environment takes or gives back a mutex -/
  | envLock (m : Nat) (md : Mode)
  | envUnlock (m : Nat) (md : Mode)
  deriving DecidableEq

/-- Guard `i`, which must be alive. -/
def get (w : W) (i : Nat) : Res Guard :=
  match w.gs[i]? with
  | some (some g) => .ok g
  | _ => .ub

/-- A guard of one of the three single-mutex classes. -/
def get1 (w : W) (i : Nat) : Res (Kind × Option Nat × Bool × Bool) :=
  match w.gs[i]? with
  | some (some (.one k m l s)) => .ok (k, m, l, s)
  | _ => .ub

/-- Guard `i` is now `g`. -/
def put (w : W) (i : Nat) (g : Option Guard) : W := { w with gs := w.gs.set i g }

/-- A new guard. -/
def push (w : W) (g : Guard) : W := { w with gs := w.gs ++ [some g] }

/-- `*m_`. -/
def deref (m : Option Nat) : Res Nat := Res.ofOption m

/-- Destructor. -/
def destroy (w : W) (i : Nat) : Res W := do
  match ← get w i with
  | .one k m l s =>
    if k = .readWrite ∧ s then do
      let m ← deref m
      let w ← release w m .shared
      .ok (put w i none)
    else if l then do
      let m ← deref m
      let w ← release w m k.mode
      .ok (put w i none)
    else .ok (put w i none)
  | .pair md m1 m2 => do
    let w ← release w m1 md
    let w ← release w m2 md
    .ok (put w i none)

/-- `lock()` on a guard. -/
def lockG (w : W) (i : Nat) : Res W := do
  let (k, m, l, s) ← get1 w i
  if l then .ok w
  else do
    let m' ← deref m
    let w ← acquire w m' k.mode
    .ok (put w i (some (.one k m true s)))

/-- `unlock()` on a guard (phmap.hpp:250-255, 334-339, 431-436). -/
def unlockG (w : W) (i : Nat) : Res W := do
  let (k, m, l, s) ← get1 w i
  if l then do
    let m' ← deref m
    let w ← release w m' k.mode
    .ok (put w i (some (.one k m false s)))
  else .ok w

/-- `unlock_shared()` on a guard (phmap.hpp:416-421). -/
def unlockSharedG (w : W) (i : Nat) : Res W := do
  let (k, m, l, s) ← get1 w i
  if s then do
    let m' ← deref m
    let w ← release w m' .shared
    .ok (put w i (some (.one k m l false)))
  else .ok w

/-- One step of a program with guards; the cases cite their lines in `Op`. -/
def step (w : W) : Op → Res W
  | .default k => .ok (push w (.one k none false false))
  | .construct k m => match k with
    | .readWrite => do
      let w ← acquire w m .shared
      .ok (push w (.one k (some m) false true))
    | k => do
      let w ← acquire w m k.mode
      .ok (push w (.one k (some m) true false))
  | .adopt k m =>
    -- the caller hands over a lock it holds
    .ok (push { w with env := bump w.env m k.mode (w.env m k.mode - 1) } (.one k (some m) true false))
  | .defer k m => .ok (push w (.one k (some m) false false))
  | .tryTo k m luck => do
    -- the result of `try_lock` is dropped
    let (w, _) ← tryAcquire w m k.mode luck
    .ok (push w (.one k (some m) false false))
  | .moveCtor i => do
    let (k, m, l, s) ← get1 w i
    .ok (push (put w i (some (.one k none false false))) (.one k m l s))
  | .moveAssign i j => do
    -- `temp(std::move(other))`
    let (k, m, l, s) ← get1 w j
    let w := put w j (some (.one k none false false))
    -- `swap(temp)`
    let (k', m', l', s') ← get1 w i
    let w := put w i (some (.one k m l s))
    -- destructor of `temp`
    let w := push w (.one k' m' l' s')
    destroy w (w.gs.length - 1)
  | .swap i j => do
    let (k, m, l, s) ← get1 w i
    let (k', m', l', s') ← get1 w j
    .ok (put (put w i (some (.one k' m' l' s'))) j (some (.one k m l s)))
  | .lock i => lockG w i
  | .unlock i => unlockG w i
  | .lockShared i => do
    let (k, m, l, s) ← get1 w i
    if s then .ok w
    else do
      let m' ← deref m
      let w ← acquire w m' .shared
      .ok (put w i (some (.one k m l true)))
  | .unlockShared i => unlockSharedG w i
  | .tryLock i luck => do
    let (k, m, l, s) ← get1 w i
    if l then .ok w
    else do
      let m' ← deref m
      let (w, b) ← tryAcquire w m' k.mode luck
      .ok (put w i (some (.one k m b s)))
  | .switch i => do
    let (k, _, _, _) ← get1 w i
    if k = .readWrite then do
      let w ← unlockSharedG w i
      lockG w i
    else .ok w
  | .destroy i => destroy w i
  | .pair md m1 m2 => do
    -- `std::lock` takes both or waits
    let w ← acquire w m1 md
    let w ← acquire w m2 md
    .ok (push w (.pair md m1 m2))
  | .pairAdopt md m1 m2 =>
    let env := bump w.env m1 md (w.env m1 md - 1)
    .ok (push { w with env := bump env m2 md (env m2 md - 1) } (.pair md m1 m2))
  | .envLock m md => do
    let w ← acquire w m md
    .ok { w with env := bump w.env m md (w.env m md + 1) }
  | .envUnlock m md => do
    let w ← release w m md
    .ok { w with env := bump w.env m md (w.env m md - 1) }

end Gtl.Guards
