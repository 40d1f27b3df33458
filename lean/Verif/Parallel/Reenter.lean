import Verif.Spec.Reenter
import Verif.Parallel.Bulk
/-!
# Callbacks that call back into a parallel container, one thread (phmap.hpp:3864-3969)

`nrun held` runs a program while the locks of the submaps `held` are held by calls whose callbacks are running. Locking a
mutex of the standard library that the thread holds already, in whatever mode, is undefined behaviour (in practice the
thread waits for itself).

Simplifications: a callback uses the reference to the element it got before it makes calls, not afterwards. A table that
has been reallocated is recognised by its capacity: a callback that has the submap reallocated with the same capacity
(by `rehash`) is taken for one that does not.
-/

namespace Gtl.Parallel

open Gtl.Swiss
open Gtl.Spec (POp Op Resp Prog)

namespace PTbl
variable {α κ : Type} (P : PCfg α κ)

/-- Does the call lock a submap whose lock is held? -/
def clash (held : List Nat) (op : POp α κ) : Bool :=
  P.mtx != .null && (match op.reach P.C.key (fun k => subidx P.N (P.C.hash k)) with
    | some js => js.any held.contains
    | none => !op.lockless && !held.isEmpty)

/-- `erase_if_impl` up to the call of the callback (phmap.hpp:3914-3927): the position, or the answer `0` or `1` of the call.
-/
def eraseSeek (t : Tbl α) (k : κ) : Res (Nat ⊕ Bool) := do
  match ← t.find P.C k with
  | none => .ok (.inr false)
  | some off =>
    let r ← if P.mtx = .shared then t.find P.C k else Res.ok (some off)
    match r with
    | none => .ok (.inr true)
    | some off => .ok (.inl off)

/-- A program, while the locks of the submaps `held` are held (phmap.hpp:3864-3969). -/
def nrun : Prog α κ → List Nat → PTbl α → Res (PTbl α × List (Resp α))
  | .done, _, p => .ok (p, [])
  | .call op rest, held, p =>
    if clash P held op then .ub
    else do
      let (p, r) ← p.pstep P op
      let (p, rs) ← nrun (rest r) held p
      .ok (p, r :: rs)
  -- phmap.hpp:3888-3901
  | .modifyIf k f inner rest, held, p =>
    if clash P held (.modifyIf k f : POp α κ) then .ub
    else do
      let (p, r) ← p.pstep P (.modifyIf k f)
      match r with
      | .elem (some b) => do
        let (p, rs) ← nrun (inner b) (subidx P.N (P.C.hash k) :: held) p
        let (p, qs) ← nrun (rest true) held p
        .ok (p, rs ++ .bool true :: qs)
      | _ => do
        let (p, qs) ← nrun (rest false) held p
        .ok (p, .bool false :: qs)
  -- phmap.hpp:3943-3969, 4621-4640
  | .emplaceL a f inner rest, held, p =>
    if clash P held (.emplaceL a f : POp α κ) then .ub
    else do
      let (p, r) ← p.pstep P (.emplaceL a f)
      match r with
      | .ins b false => do
        let (p, rs) ← nrun (inner b) (subidx P.N (P.C.hash (P.C.key a)) :: held) p
        let (p, qs) ← nrun (rest false) held p
        .ok (p, rs ++ .bool false :: qs)
      | _ => do
        let (p, qs) ← nrun (rest true) held p
        .ok (p, .bool true :: qs)
  -- phmap.hpp:3914-3934: `set._erase(it)` with the iterator found before
  | .eraseIf k pr inner rest, held, p =>
    if clash P held (.eraseIfKey k pr : POp α κ) then .ub
    else do
      let t ← p.sub (subidx P.N (P.C.hash k))
      match ← eraseSeek P t k with
      | .inr b => do
        let (p, qs) ← nrun (rest b) held p
        .ok (p, .bool b :: qs)
      | .inl off => do
        let b ← t.readSlot off
        let (p, rs) ← nrun (inner b) (subidx P.N (P.C.hash k) :: held) p
        if pr b then do
          let u ← p.sub (subidx P.N (P.C.hash k))
          if u.capacity ≠ t.capacity then .ub
          else do
            let u ← u.eraseAt P.C off
            let (p, qs) ← nrun (rest true) held { sets := p.sets.set (subidx P.N (P.C.hash k)) u }
            .ok (p, rs ++ .bool true :: qs)
        else do
          let (p, qs) ← nrun (rest false) held p
          .ok (p, rs ++ .bool false :: qs)
  -- phmap.hpp:3943-3956 with `find_or_prepare_insert_with_hash` (4396-4408) and `lazy_emplace_at` (2200-2209): the
  -- constructor object holds the address of the slot, the control byte is set afterwards
  | .create a inner rest, held, p =>
    if clash P held (.emplaceL a id : POp α κ) then .ub
    else do
      let t ← p.sub (subidx P.N (P.C.hash (P.C.key a)))
      match ← t.findHash P.C (P.C.key a) (P.C.hash (P.C.key a)) with
      | some _ => do
        let (p, qs) ← nrun (rest false) held p
        .ok (p, .bool false :: qs)
      | none => do
        let (t, off) ← t.prepareInsert P.C (P.C.hash (P.C.key a))
        let (p, rs) ← nrun inner (subidx P.N (P.C.hash (P.C.key a)) :: held)
          { sets := p.sets.set (subidx P.N (P.C.hash (P.C.key a))) t }
        let u ← p.sub (subidx P.N (P.C.hash (P.C.key a)))
        if u.capacity ≠ t.capacity then .ub
        else do
          let u ← u.constructSlot off a
          let u ← u.setCtrl P.C.G.W off (H2 (P.C.hash (P.C.key a)))
          let (p, qs) ← nrun (rest true) held { sets := p.sets.set (subidx P.N (P.C.hash (P.C.key a))) u }
          .ok (p, rs ++ .bool true :: qs)

end PTbl

end Gtl.Parallel
