import Verif.Conc.Container
import Verif.Spec.CallbackThrow
/-!
# Parallel containers used from many threads, with callbacks that throw

The calls of `Verif.Conc.Container`, where the callback of `if_contains`, `modify_if`, `erase_if` and the callback for
an existing element of `try_emplace_l`/`lazy_emplace_l` may throw. The lock is held by a guard object in the scope of
the call (`L m` phmap.hpp:3890, `UniqueLock m` 3945, 4623, `L m(inner)` 3917), so its destructor (238-241, 323-326,
401-406) releases the lock when the exception leaves the call; which mode it releases is C24.

A constructor callback that throws (`lazy_emplace_l`, 3950) is `createThrows` below.
-/

namespace Gtl.Conc

open Gtl.Swiss Gtl.Parallel
open Gtl.Spec (Op POp Resp End CbOp)

variable {α κ σ β : Type} (P : PCfg α κ)

/-- A scope with a lock guard: the code of the scope, then the destructor of the guard, then either the rest or the
caller, with the exception. -/
def Code.scope {ρ : Type} (i : Nat) (m : Mode) (b : Code σ (End β)) (k : β → Code σ (End ρ)) : Code σ (End ρ) :=
  .lock i m (b.bind fun x =>
    match x with
    | .ret y => .unlock i m (k y)
    | .threw => .unlock i m (.ret .threw))

/-- `modify_if_impl` (phmap.hpp:3888-3901): the callback runs on the element in the table. -/
def modifyT (th : α → Bool) (t : Tbl α) (k : κ) (f : α → α) : Res (Tbl α × End (Resp α)) := do
  match ← t.find P.C k with
  | none => .ok (t, .ret (.elem none))
  | some off => do
    let a ← t.readSlot off
    let t ← t.assignAt off f
    if th a then .ok (t, .threw) else .ok (t, .ret (.elem (some a)))

/-- `try_emplace_l` (phmap.hpp:4621-4640) and `lazy_emplace_l` (3943-3969) with a constructor that does not throw. -/
def emplaceLT (th : α → Bool) (t : Tbl α) (a : α) (f : α → α) : Res (Tbl α × End (Resp α)) := do
  let hashval := P.C.hash (P.C.key a)
  match ← t.findHash P.C (P.C.key a) hashval with
  | none => do
    let (t, off) ← t.prepareInsert P.C hashval
    let t ← t.constructSlot off a
    let t ← t.setCtrl P.C.G.W off (H2 hashval)
    .ok (t, .ret (.ins a true))
  | some off => do
    let b ← t.readSlot off
    let t ← t.assignAt off f
    if th b then .ok (t, .threw) else .ok (t, .ret (.ins b false))

/-- `erase_if_impl` (phmap.hpp:3909-3934) from the last lookup on: the predicate runs before `_erase`. -/
def eraseAskT (th : α → Bool) (k : κ) (pr : α → Bool) (gone : Nat) (t : Tbl α) : Res (Tbl α × End Nat) := do
  match ← t.find P.C k with
  | none => .ok (t, .ret gone)
  | some off => do
    let a ← t.readSlot off
    if th a then .ok (t, .threw)
    else if pr a then do
      let t ← t.eraseAt P.C off
      .ok (t, .ret 1)
    else .ok (t, .ret 0)

/-- What a call does between taking and releasing its lock. -/
def bodyT (o : CbOp α κ) (t : Tbl α) : Res (Tbl α × End (Resp α)) :=
  match o.call with
  | .ifContains k => modifyT P o.throws t k id
  | .modifyIf k f => modifyT P o.throws t k f
  | .emplaceL a f => emplaceLT P o.throws t a f
  | .eraseIfKey k pr => do
    let (t, n) ← eraseAskT P o.throws k pr 0 t
    match n with
    | .ret n => .ok (t, .ret (.bool (n != 0)))
    | .threw => .ok (t, .threw)
  | c => do
    let (t, r) ← body P c t
    .ok (t, .ret r)

/-- On which elements the predicate of an erase throws; `erase(key)` has none. -/
def eraseThrows (o : CbOp α κ) : α → Bool :=
  match o.call with
  | .eraseIfKey _ _ => o.throws
  | _ => fun _ => false

/-- `c` is code for the call `o`: its scopes, cut into atomic actions in some way. -/
def RunsT (o : CbOp α κ) (c : Code (Tbl α) (End (Resp α))) : Prop :=
  match P.mtx, eraseArgs o.call with
  | .shared, some (k, pr, rep) =>
    ∃ (look : Code (Tbl α) (End Bool)) (again : Code (Tbl α) (End Nat)),
      Does (submap P o.call) true (fun t => do let (t, b) ← eraseLook P k t; .ok (t, End.ret b)) look ∧
      Does (submap P o.call) false (eraseAskT P (eraseThrows o) k pr 1) again ∧
      c = .scope (submap P o.call) .shared look (fun found =>
        if found then .scope (submap P o.call) .excl again (fun n => .ret (.ret (rep n))) else .ret (.ret (rep 0)))
  | _, _ => ∃ b, Does (submap P o.call) (isConst o.call) (bodyT P o) b ∧
      c = .scope (submap P o.call) (lockMode P o.call) b (fun r => .ret (.ret r))

/-- `lazy_emplace_l` of an absent key whose constructor callback throws (phmap.hpp:3946-3951): the slot has been
prepared, nothing is constructed in it and its control byte stays as it was. -/
def createThrows (t : Tbl α) (k : κ) : Res (Tbl α × End (Resp α)) := do
  let hashval := P.C.hash k
  match ← t.findHash P.C k hashval with
  | none => do
    let (t, _) ← t.prepareInsert P.C hashval
    .ok (t, .threw)
  | some _ => .ok (t, .threw)

/-! ## One concrete cutting into atomic actions -/

/-- `modify_if_impl` in four actions: the callback changes the element, then throws or not. -/
def modifyStepsT (i : Nat) (th : α → Bool) (k : κ) (f : α → α) : Code (Tbl α) (End (Resp α)) :=
  look i (fun t => t.find P.C k) fun r =>
    match r with
    | none => .ret (.ret (.elem none))
    | some off =>
      look i (fun t => t.readSlot off) fun a =>
      prim i (fun t => do let t ← t.assignAt off f; .ok (t, ())) fun _ =>
      if th a then .ret .threw else .ret (.ret (.elem (some a)))

/-- The same without the write, for `if_contains`. -/
def ifContainsStepsT (i : Nat) (th : α → Bool) (k : κ) : Code (Tbl α) (End (Resp α)) :=
  look i (fun t => t.find P.C k) fun r =>
    match r with
    | none => .ret (.ret (.elem none))
    | some off =>
      look i (fun t => t.readSlot off) fun a =>
      if th a then .ret .threw else .ret (.ret (.elem (some a)))

/-- Calls in one scope: `modify_if` and `if_contains` as above, otherwise one action. -/
def wholeT (i : Nat) (o : CbOp α κ) : Code (Tbl α) (End (Resp α)) :=
  match o.call with
  | .modifyIf k f => modifyStepsT P i o.throws k f
  | .ifContains k => ifContainsStepsT P i o.throws k
  | .base (.contains k) => look i (fun t => t.contains P.C k) fun b => .ret (.ret (.bool b))
  | .base (.count k) => look i (fun t => t.contains P.C k) fun b => .ret (.ret (.nat (if b then 1 else 0)))
  | _ => prim i (bodyT P o) .ret

/-- The interface. -/
def stepsT (o : CbOp α κ) : Code (Tbl α) (End (Resp α)) :=
  let i := submap P o.call
  match P.mtx, eraseArgs o.call with
  | .shared, some (k, pr, rep) =>
    .scope i .shared (look i (fun t => t.find P.C k) fun r => .ret (.ret r.isSome)) fun found =>
      if found then .scope i .excl (prim i (eraseAskT P (eraseThrows o) k pr 1) .ret) (fun n => .ret (.ret (rep n)))
      else .ret (.ret (rep 0))
  | _, _ => .scope i (lockMode P o.call) (wholeT P i o) (fun r => .ret (.ret r))

end Gtl.Conc
