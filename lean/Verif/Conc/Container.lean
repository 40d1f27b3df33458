import Verif.Conc.Machine
import Verif.Parallel.Table
/-!
# Model of the parallel containers used from many threads (phmap.hpp:3180-4715)

One shared object per submap, protected by its own lock. A call is a critical section on the submap of its key (two for
`erase` with a shared mutex). What happens inside a section is the code of `Verif.Parallel.Table`, cut into atomic
actions in an arbitrary way.

Only the calls documented as thread safe are modelled: those that take a key and return flags, counts or go through a
callback. `size()`, iteration, `find` (the returned iterator outlives the lock), `operator[]`, `extract(key)` (4121-4124:
looks up under the lock, then changes the submap without it) are not.
-/

namespace Gtl.Conc

open Gtl.Swiss Gtl.Parallel
open Gtl.Spec (Op POp Resp)

variable {α κ : Type} (P : PCfg α κ)

/-- The calls that may be made concurrently. -/
def Concurrent : POp α κ → Prop
  | .base (.insert _) => True
  | .base (.insertOrAssign _ _) => True
  | .base (.contains _) => True
  | .base (.count _) => True
  | .base (.erase _) => True
  | .base (.insertNode (some _)) => True
  | .base (.toggle _) => True
  | .ifContains _ => True
  | .modifyIf _ _ => True
  | .eraseIfKey _ _ => True
  | .emplaceL _ _ => True
  | _ => False

/-- `erase(k)` or `erase_if(k, pred)`. -/
def Erases : POp α κ → Prop
  | .base (.erase _) => True
  | .eraseIfKey _ _ => True
  | _ => False

/-- The submap whose lock the call takes: `sets_[subidx(hash(key))]` (phmap.hpp:3671, 3733, 3747, 3842, 3917, 4228 and
`find_ptr` 4381-4386, `find_or_prepare_insert_with_hash` 4397-4410). -/
def submap : POp α κ → Nat
  | .base (.insert a) => subidx P.N (P.C.hash (P.C.key a))
  | .base (.insertOrAssign a _) => subidx P.N (P.C.hash (P.C.key a))
  | .base (.contains k) => subidx P.N (P.C.hash k)
  | .base (.count k) => subidx P.N (P.C.hash k)
  | .base (.erase k) => subidx P.N (P.C.hash k)
  | .base (.insertNode (some a)) => subidx P.N (P.C.hash (P.C.key a))
  | .base (.toggle a) => subidx P.N (P.C.hash (P.C.key a))
  | .ifContains k => subidx P.N (P.C.hash k)
  | .modifyIf k _ => subidx P.N (P.C.hash k)
  | .eraseIfKey k _ => subidx P.N (P.C.hash k)
  | .emplaceL a _ => subidx P.N (P.C.hash (P.C.key a))
  | _ => 0

/-- The lock the call takes. `SharedLock` for `if_contains` (3865), `contains` and `count` (4231); for mutexes without
shared locks it is the same as `UniqueLock` (540-549). All others take `UniqueLock`. -/
def lockMode : POp α κ → Mode
  | .base (.contains _) => if P.mtx = .shared then .shared else .excl
  | .base (.count _) => if P.mtx = .shared then .shared else .excl
  | .ifContains _ => if P.mtx = .shared then .shared else .excl
  | _ => .excl

/-- What the call does to its submap between taking and releasing the lock (lines as for `submap`). -/
def body (o : POp α κ) (t : Tbl α) : Res (Tbl α × Resp α) :=
  match o with
  | .base (.insert a) => t.step P.C (.insert a)
  | .base (.insertOrAssign a f) => t.step P.C (.insertOrAssign a f)
  | .base (.contains k) => t.step P.C (.contains k)
  | .base (.count k) => do
    let b ← t.contains P.C k
    .ok (t, .nat (if b then 1 else 0))
  | .base (.erase k) => do
    let (t, n) ← PTbl.eraseKeyIf P t k (fun _ => true)
    .ok (t, .nat n)
  | .base (.insertNode (some a)) => t.step P.C (.insertNode (some a))
  | .base (.toggle a) => t.step P.C (.toggle a)
  | .ifContains k => do
    let (t, o) ← PTbl.modifyKeyIf P t k id
    .ok (t, .elem o)
  | .modifyIf k f => do
    let (t, o) ← PTbl.modifyKeyIf P t k f
    .ok (t, .elem o)
  | .eraseIfKey k pr => do
    let (t, n) ← PTbl.eraseKeyIf P t k pr
    .ok (t, .bool (n != 0))
  | .emplaceL a f => do
    let (t, b, ins) ← PTbl.emplaceL P t a f
    .ok (t, .ins b ins)
  | _ => .ub

/-- First critical section of `erase_if_impl` with a shared mutex (phmap.hpp:3919-3922): look the key up under the
shared lock. -/
def eraseLook (k : κ) (t : Tbl α) : Res (Tbl α × Bool) := do
  let r ← t.find P.C k
  .ok (t, r.isSome)

/-- Second critical section (phmap.hpp:3923-3933), after `switch_to_unique()` has released the shared lock and taken
the exclusive one: look up again, report 1 if the key has gone, else ask the predicate and erase. -/
def eraseAgain (k : κ) (pr : α → Bool) (t : Tbl α) : Res (Tbl α × Nat) := do
  match ← t.find P.C k with
  | none => .ok (t, 1)
  | some off => do
    let a ← t.readSlot off
    if pr a then do
      let t ← t.eraseAt P.C off
      .ok (t, 1)
    else .ok (t, 0)

/-- The calls that only use `const` member functions of the submap: `if_contains` (3857-3868) and `contains`, `count`
(4163-4166, 4227-4232). -/
def isConst : POp α κ → Bool
  | .base (.contains _) => true
  | .base (.count _) => true
  | .ifContains _ => true
  | _ => false

/-- `b` is one way of doing `f` on object `i` by atomic actions, which are all reads if the code is `const`. Nothing is
said about states in which `f` has no result. -/
def Does {σ β : Type} (i : Nat) (const : Bool) (f : σ → Res (σ × β)) (b : Code σ β) : Prop :=
  b.Body i ∧ (const = true → b.ReadOnly) ∧ ∀ s r, f s = .ok r → b.solo s = .ok r

/-- Key and predicate of an erase, and how its count is reported. -/
def eraseArgs : POp α κ → Option (κ × (α → Bool) × (Nat → Resp α))
  | .base (.erase k) => some (k, fun _ => true, .nat)
  | .eraseIfKey k pr => some (k, pr, fun n => .bool (n != 0))
  | _ => none

/-- `c` is code for the call `o`: its critical sections, cut into atomic actions in some way. -/
def Runs (o : POp α κ) (c : Code (Tbl α) (Resp α)) : Prop :=
  match P.mtx, eraseArgs o with
  | .shared, some (k, pr, rep) =>
    ∃ (look : Code (Tbl α) Bool) (again : Code (Tbl α) Nat),
      Does (submap P o) true (eraseLook P k) look ∧ Does (submap P o) false (eraseAgain P k pr) again ∧
      c = .sec (submap P o) .shared look (fun found =>
        if found then .sec (submap P o) .excl again (fun n => .ret (rep n)) else .ret (rep 0))
  | _, _ => ∃ b, Does (submap P o) (isConst o) (body P o) b ∧ c = .sec (submap P o) (lockMode P o) b .ret

/-- The submaps of a container as shared objects. -/
def objects (p : PTbl α) (i : Nat) : Tbl α := (p.sets[i]?).getD Tbl.empty

/-- The container made of the shared objects. -/
def ofObjects (A : Nat → Tbl α) : PTbl α := { sets := (List.range (2 ^ P.N)).map A }

/-! ## One concrete cutting into atomic actions -/

/-- One action that runs `f` and goes on with its result. -/
def prim {σ β ρ : Type} (i : Nat) (f : σ → Res (σ × β)) (k : β → Code σ ρ) : Code σ ρ :=
  .act i (fun s => match f s with | .ok (s', _) => s' | _ => s) (fun s => match f s with | .ok (_, b) => k b | _ => .ub)

/-- A read. -/
def look {σ β ρ : Type} (i : Nat) (f : σ → Res β) (k : β → Code σ ρ) : Code σ ρ :=
  .act i id (fun s => match f s with | .ok b => k b | _ => .ub)

/-- `modify_if_impl` (phmap.hpp:3889-3904) in three actions. -/
def modifySteps (i : Nat) (k : κ) (f : α → α) : Code (Tbl α) (Option α) :=
  look i (fun t => t.find P.C k) fun r =>
    match r with
    | none => .ret none
    | some off =>
      look i (fun t => t.readSlot off) fun a =>
      prim i (fun t => do let t ← t.assignAt off f; .ok (t, ())) fun _ => .ret (some a)

/-- The same without the write, for `if_contains`. -/
def ifContainsSteps (i : Nat) (k : κ) : Code (Tbl α) (Option α) :=
  look i (fun t => t.find P.C k) fun r =>
    match r with
    | none => .ret none
    | some off => look i (fun t => t.readSlot off) fun a => .ret (some a)

/-- `try_emplace_l` (phmap.hpp:4620-4645) action by action. -/
def emplaceSteps (i : Nat) (a : α) (f : α → α) : Code (Tbl α) (α × Bool) :=
  look i (fun t => t.findHash P.C (P.C.key a) (P.C.hash (P.C.key a))) fun r =>
    match r with
    | none =>
      prim i (fun t => t.prepareInsert P.C (P.C.hash (P.C.key a))) fun off =>
      prim i (fun t => do let t ← t.constructSlot off a; .ok (t, ())) fun _ =>
      prim i (fun t => do let t ← t.setCtrl P.C.G.W off (H2 (P.C.hash (P.C.key a))); .ok (t, ())) fun _ =>
      .ret (a, true)
    | some off =>
      look i (fun t => t.readSlot off) fun b =>
      prim i (fun t => do let t ← t.assignAt off f; .ok (t, ())) fun _ => .ret (b, false)

/-- `erase_if_impl` (phmap.hpp:3914-3936) from the second lookup on. -/
def eraseSteps (i : Nat) (k : κ) (pr : α → Bool) (gone : Nat) : Code (Tbl α) Nat :=
  look i (fun t => t.find P.C k) fun r =>
    match r with
    | none => .ret gone
    | some off =>
      look i (fun t => t.readSlot off) fun a =>
      if pr a then prim i (fun t => do let t ← t.eraseAt P.C off; .ok (t, ())) fun _ => .ret 1
      else .ret 0

/-- The whole interface, with the cuttings above. -/
def steps (o : POp α κ) : Code (Tbl α) (Resp α) :=
  let i := submap P o
  let whole := fun (b : Code (Tbl α) (Resp α)) => Code.sec i (lockMode P o) b .ret
  match o with
  | .base (.contains k) => whole (look i (fun t => t.contains P.C k) fun b => .ret (.bool b))
  | .base (.count k) => whole (look i (fun t => t.contains P.C k) fun b => .ret (.nat (if b then 1 else 0)))
  | .ifContains k => whole ((ifContainsSteps P i k).bind fun r => .ret (.elem r))
  | .modifyIf k f => whole ((modifySteps P i k f).bind fun r => .ret (.elem r))
  | .emplaceL a f => whole ((emplaceSteps P i a f).bind fun r => .ret (.ins r.1 r.2))
  | o =>
    match eraseArgs o with
    | some (k, pr, rep) =>
      if P.mtx = .shared then
        .sec i .shared (look i (fun t => t.find P.C k) fun r => .ret r.isSome) fun found =>
          if found then .sec i .excl (eraseSteps P i k pr 1) (fun n => .ret (rep n)) else .ret (rep 0)
      else whole ((eraseSteps P i k pr 0).bind fun n => .ret (rep n))
    | none => whole (prim i (body P o) .ret)

/-! ## Running a given schedule -/

variable {op σ ρ : Type}

open Gtl.Spec (Event)

/-- Can the lock be taken, as seen by threads `0..n-1`? -/
def freeFor (n : Nat) (W : World op σ ρ) (i : Nat) : Mode → Bool
  | .excl => (List.range n).all fun t => (W.hold i t).isNone
  | .shared => (List.range n).all fun t => W.hold i t != some .excl

/-- Let thread `t` take its next step; `o` is the call to make if it is outside. -/
def move (code : op → Code σ ρ) (n : Nat) (W : World op σ ρ) (t : Nat) (o : Option op) :
    Option (Option (Event op ρ) × World op σ ρ) :=
  if n ≤ t then none
  else match W.th t with
  | .idle => o.map fun o => (some (.inv t o), { W with th := upd W.th t (.run o (code o)) })
  | .run o c => match c with
    | .ret r => some (some (.ret t r), { W with th := upd W.th t .idle })
    | .ub => none
    | .act i w k => some (none, { W with obj := upd W.obj i (w (W.obj i)), th := upd W.th t (.run o (k (W.obj i))) })
    | .lock i m k =>
      if freeFor n W i m then
        some (none, { W with hold := upd W.hold i (upd (W.hold i) t (some m)), th := upd W.th t (.run o k) })
      else none
    | .unlock i m k =>
      if W.hold i t = some m then
        some (none, { W with hold := upd W.hold i (upd (W.hold i) t none), th := upd W.th t (.run o k) })
      else some (none, { W with th := upd W.th t (.run o .ub) })

/-- A whole schedule. -/
def play (code : op → Code σ ρ) (n : Nat) : World op σ ρ → List (Nat × Option op) → Option (List (Event op ρ) × World op σ ρ)
  | W, [] => some ([], W)
  | W, (t, o) :: es => do
    let (e, W') ← move code n W t o
    let (H, W'') ← play code n W' es
    some (e.toList ++ H, W'')

end Gtl.Conc
