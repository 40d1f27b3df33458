import Verif.Conc.ThrowProof
import Verif.Swiss.AllocFail
import Verif.Spec.ConcAlloc
/-!
# Parallel containers used from many threads while memory is short

The calls of `Verif.Conc.Throw`, with an allocator that throws `std::bad_alloc` after some allocations. The guard of the
lock is in the scope of the call (`UniqueLock m` phmap.hpp:3945, 4623; the lock of `emplace_decomposable_with_hash` 3744-3758, of
`find_or_prepare_insert_with_hash` 4397-4410, which is handed to the caller), so its destructor (238-241, 323-326,
401-406) releases the lock when the exception leaves the call.
-/

namespace Gtl.Conc

open Gtl.Swiss Gtl.Parallel
open Gtl.Spec (Op POp Resp End CbOp MemOp Ended)

variable {α κ σ β : Type} (P : PCfg α κ)

/-- A scope with a lock guard, as `Code.scope`, with two kinds of exceptions. -/
def Code.scopeM {ρ : Type} (i : Nat) (m : Mode) (b : Code σ (Ended β)) (k : β → Code σ (Ended ρ)) : Code σ (Ended ρ) :=
  .lock i m (b.bind fun x =>
    match x with
    | .ret y => .unlock i m (k y)
    | .threw => .unlock i m (.ret .threw)
    | .badAlloc => .unlock i m (.ret .badAlloc))

/-- What a call on one submap that may run out of memory leaves and tells its caller. -/
def tried (x : Res (Tried (Tbl α) (Tbl α × Resp α))) : Res (Tbl α × Ended (Resp α)) := do
  match ← x with
  | .failed t => .ok (t, .badAlloc)
  | .done (t, r) _ => .ok (t, .ret r)

/-- `try_emplace_l` (phmap.hpp:4621-4640) and `lazy_emplace_l` (3943-3969): `prepare_insert` may throw. -/
def emplaceLM (th : α → Bool) (mem : Nat) (t : Tbl α) (a : α) (f : α → α) : Res (Tbl α × Ended (Resp α)) := do
  let hashval := P.C.hash (P.C.key a)
  match ← t.findHash P.C (P.C.key a) hashval with
  | none => do
    match ← t.prepareInsertA P.C mem hashval with
    | .failed t => .ok (t, .badAlloc)
    | .done (t, off) _ => do
      let t ← t.constructSlot off a
      let t ← t.setCtrl P.C.G.W off (H2 hashval)
      .ok (t, .ret (.ins a true))
  | some off => do
    let b ← t.readSlot off
    let t ← t.assignAt off f
    if th b then .ok (t, .threw) else .ok (t, .ret (.ins b false))

/-- What a call does between taking and releasing its lock: insertions (phmap.hpp:3744-3758, 4397-4410) may run out of
memory, other calls do not allocate. -/
def bodyM (o : MemOp α κ) (t : Tbl α) : Res (Tbl α × Ended (Resp α)) :=
  match o.cb.call with
  | .base (.insert a) => tried (t.stepA P.C o.mem (.insert a))
  | .base (.insertOrAssign a f) => tried (t.stepA P.C o.mem (.insertOrAssign a f))
  | .base (.insertNode (some a)) => tried (t.stepA P.C o.mem (.insertNode (some a)))
  | .base (.toggle a) => tried (t.stepA P.C o.mem (.toggle a))
  | .emplaceL a f => emplaceLM P o.cb.throws o.mem t a f
  | _ => do
    let (t, r) ← bodyT P o.cb t
    .ok (t, .of r)

/-- `c` is code for the call `o`: its scopes, cut into atomic actions in some way. Erasing calls do not allocate. -/
def RunsM (o : MemOp α κ) (c : Code (Tbl α) (Ended (Resp α))) : Prop :=
  match P.mtx, eraseArgs o.cb.call with
  | .shared, some _ => ∃ c', RunsT P o.cb c' ∧ c = c'.bind fun r => .ret (.of r)
  | _, _ => ∃ b, Does (submap P o.cb.call) (isConst o.cb.call) (bodyM P o) b ∧
      c = .scopeM (submap P o.cb.call) (lockMode P o.cb.call) b (fun r => .ret (.ret r))

/-! ## One concrete cutting into atomic actions -/

/-- The insertion of an element (phmap.hpp:3943-3969) in four actions: look the key up, prepare a slot (which may throw),
construct the element, write the control byte. -/
def emplaceStepsM (i : Nat) (th : α → Bool) (mem : Nat) (a : α) (f : α → α) : Code (Tbl α) (Ended (Resp α)) :=
  look i (fun t => t.findHash P.C (P.C.key a) (P.C.hash (P.C.key a))) fun r =>
    match r with
    | none =>
      prim i (fun t => do
        match ← t.prepareInsertA P.C mem (P.C.hash (P.C.key a)) with
        | .failed t => .ok (t, none)
        | .done (t, off) _ => .ok (t, some off)) fun r =>
      match r with
      | none => .ret .badAlloc
      | some off =>
        prim i (fun t => do let t ← t.constructSlot off a; .ok (t, ())) fun _ =>
        prim i (fun t => do let t ← t.setCtrl P.C.G.W off (H2 (P.C.hash (P.C.key a))); .ok (t, ())) fun _ =>
        .ret (.ret (.ins a true))
    | some off =>
      look i (fun t => t.readSlot off) fun b =>
      prim i (fun t => do let t ← t.assignAt off f; .ok (t, ())) fun _ =>
      if th b then .ret .threw else .ret (.ret (.ins b false))

/-- Calls in one scope: `try_emplace_l` as above; calls that do not allocate as in `wholeT`; otherwise one action. -/
def wholeM (i : Nat) (o : MemOp α κ) : Code (Tbl α) (Ended (Resp α)) :=
  match o.cb.call with
  | .emplaceL a f => emplaceStepsM P i o.cb.throws o.mem a f
  | .base (.insert _) | .base (.insertOrAssign _ _) | .base (.insertNode _) | .base (.toggle _) => prim i (bodyM P o) .ret
  | _ => (wholeT P i o.cb).bind fun r => .ret (.of r)

/-- The interface. -/
def stepsM (o : MemOp α κ) : Code (Tbl α) (Ended (Resp α)) :=
  match P.mtx, eraseArgs o.cb.call with
  | .shared, some _ => (stepsT P o.cb).bind fun r => .ret (.of r)
  | _, _ => .scopeM (submap P o.cb.call) (lockMode P o.cb.call) (wholeM P (submap P o.cb.call) o) (fun r => .ret (.ret r))

end Gtl.Conc
