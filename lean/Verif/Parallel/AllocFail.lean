import Verif.Parallel.Bulk
import Verif.Swiss.AllocFail
import Verif.Spec.ParallelAlloc
/-!
# Parallel containers whose allocator may fail

The functions of `Verif.Parallel.Table` that may allocate, with the number `b` of further allocations that succeed, on
the budgeted tables of `Verif.Swiss.AllocFail`.
-/

namespace Gtl.Parallel

open Gtl.Swiss
open Gtl.Spec (Op POp PWOp Resp put Out)

variable {α κ : Type}

/-- A loop over the submaps (phmap.hpp:4140-4146) that an exception leaves. -/
def mapTried {β : Type} (f : Nat → β → Res (Tried β β)) : Nat → List β → Res (Tried (List β) (List β))
  | b, [] => .ok (.done [] b)
  | b, t :: ts => do
    match ← f b t with
    | .failed t => .ok (.failed (t :: ts))
    | .done t left => do
      match ← mapTried f left ts with
      | .failed ts => .ok (.failed (t :: ts))
      | .done ts left => .ok (.done (t :: ts) left)

/-- A loop over the submaps of two containers (phmap.hpp:3529-3533, 4101-4109) that an exception leaves. -/
def zipTried {β : Type} (f : Nat → β → β → Res (Tried (β × β) (β × β))) :
    Nat → List β → List β → Res (Tried (List β × List β) (List β × List β))
  | b, [], us => .ok (.done ([], us) b)
  | _, _ :: _, [] => .ub
  | b, t :: ts, u :: us => do
    match ← f b t u with
    | .failed (t, u) => .ok (.failed (t :: ts, u :: us))
    | .done (t, u) left => do
      match ← zipTried f left ts us with
      | .failed (ts, us) => .ok (.failed (t :: ts, u :: us))
      | .done (ts, us) left => .ok (.done (t :: ts, u :: us) left)

namespace PTbl
variable (P : PCfg α κ)

/-- Lock submap `i` and run `f` on it; the guard releases the lock on both ways out (phmap.hpp:3744-3758). -/
def withSubA {β : Type} (p : PTbl α) (i : Nat) (f : Tbl α → Res (Tried (Tbl α) (Tbl α × β))) :
    Res (Tried (PTbl α) (PTbl α × β)) := do
  let t ← p.sub i
  match ← f t with
  | .failed t => .ok (.failed { sets := p.sets.set i t })
  | .done (t, x) left => .ok (.done ({ sets := p.sets.set i t }, x) left)

/-- `try_emplace_l` (phmap.hpp:4621-4640), `lazy_emplace_l` (3943-3969): `prepare_insert` may throw. -/
def emplaceLA (b : Nat) (t : Tbl α) (a : α) (f : α → α) : Res (Tried (Tbl α) (Tbl α × Resp α)) := do
  let hashval := P.C.hash (P.C.key a)
  match ← t.findHash P.C (P.C.key a) hashval with
  | none => Res.rest (t.prepareInsertA P.C b hashval) (fun (t, off) => do
      let t ← t.constructSlot off a
      let t ← t.setCtrl P.C.G.W off (H2 hashval)
      .ok (t, .ins a true))
  | some off => Res.plain b (do
      let x ← t.readSlot off
      let t ← t.assignAt off f
      .ok (t, .ins x false))

/-- `rehash(n)` (phmap.hpp:4140-4146). -/
def rehashA (b : Nat) (p : PTbl α) (n : Nat) : Res (Tried (PTbl α) (PTbl α)) := do
  match ← mapTried (fun b t => t.rehashA P.C b (n / 2 ^ P.N)) b p.sets with
  | .failed ts => .ok (.failed { sets := ts })
  | .done ts left => .ok (.done { sets := ts } left)

/-- `reserve(n)` (phmap.hpp:4148-4152). -/
def reserveA (b : Nat) (p : PTbl α) (n : Nat) : Res (Tried (PTbl α) (PTbl α)) :=
  let target := growthToLowerboundCapacity P.C.G.W n
  let normalized := 2 ^ P.N * normalizeCapacity (n / 2 ^ P.N)
  p.rehashA P b (if normalized > target then normalized else target)

/-- `insert(first, last)` (phmap.hpp:3645-3649): one after the other, without `reserve`. -/
def insertAllA : Nat → PTbl α → List α → Res (Tried (PTbl α) (PTbl α))
  | b, p, [] => .ok (.done p b)
  | b, p, v :: vs => do
    match ← p.withSubA (subidx P.N (P.C.hash (P.C.key v))) (fun t => t.stepA P.C b (.insert v)) with
    | .failed p => .ok (.failed p)
    | .done (p, _) left => insertAllA left p vs

/-- One operation; the functions are those cited at `PTbl.step` and `PTbl.pstep`. -/
def pstepA (b : Nat) (p : PTbl α) (op : POp α κ) : Res (Tried (PTbl α) (PTbl α × Resp α)) :=
  match op with
  | .base (.insert a) => p.withSubA (subidx P.N (P.C.hash (P.C.key a))) (fun t => t.stepA P.C b (.insert a))
  | .base (.insertOrAssign a f) =>
    p.withSubA (subidx P.N (P.C.hash (P.C.key a))) (fun t => t.stepA P.C b (.insertOrAssign a f))
  | .base (.subscript a f) => p.withSubA (subidx P.N (P.C.hash (P.C.key a))) (fun t => t.stepA P.C b (.subscript a f))
  | .base (.insertNode (some a)) =>
    p.withSubA (subidx P.N (P.C.hash (P.C.key a))) (fun t => t.stepA P.C b (.insertNode (some a)))
  | .base (.toggle a) => p.withSubA (subidx P.N (P.C.hash (P.C.key a))) (fun t => t.stepA P.C b (.toggle a))
  | .base (.insertRange vs) => Res.rest (insertAllA P b p vs) (fun p => .ok (p, .unit))
  | .base (.reserve n) => Res.rest (p.reserveA P b n) (fun p => .ok (p, .unit))
  | .base (.rehash n) => Res.rest (p.rehashA P b n) (fun p => .ok (p, .unit))
  | .emplaceL a f => p.withSubA (subidx P.N (P.C.hash (P.C.key a))) (fun t => emplaceLA P b t a f)
  | op => Res.plain b (p.pstep P op)

/-- Construction of one submap in the place of `t` (phmap.hpp:3402-3411). -/
def createSub (n b : Nat) (t : Tbl α) : Res (Tried (Tbl α) (Tbl α)) :=
  match Tbl.withBucketsA P.C b n with
  | .failed _ => .ok (.failed t)
  | .done t left => .ok (.done t left)

/-- Constructor with a bucket count (phmap.hpp:3402-3411): one submap after the other. Submaps that are not constructed
yet are empty tables here, which own nothing. -/
def createA (b n : Nat) : Res (Tried (PTbl α) (PTbl α)) := do
  match ← mapTried (createSub P n) b (empty P).sets with
  | .failed ts => .ok (.failed { sets := ts })
  | .done ts left => .ok (.done { sets := ts } left)

/-- Copy assignment of one submap (phmap.hpp:3531); the source stays as it is. -/
def copySub (b : Nat) (t u : Tbl α) : Res (Tried (Tbl α × Tbl α) (Tbl α × Tbl α)) := do
  match ← Tbl.copyAssignA P.C b t u with
  | .failed t => .ok (.failed (t, u))
  | .done t left => .ok (.done (t, u) left)

/-- Copy assignment (phmap.hpp:3529-3533): submap by submap. -/
def copyAssignA (b : Nat) (p that : PTbl α) : Res (Tried (PTbl α) (PTbl α)) := do
  match ← zipTried (copySub P) b p.sets that.sets with
  | .failed (ts, _) => .ok (.failed { sets := ts })
  | .done (ts, _) left => .ok (.done { sets := ts } left)

/-- `merge(src)` (phmap.hpp:4101-4109): submap by submap. -/
def mergeA (b : Nat) (p src : PTbl α) : Res (Tried (PTbl α × PTbl α) (PTbl α × PTbl α)) := do
  match ← zipTried (fun b t u => Tbl.mergeA P.C b t u) b p.sets src.sets with
  | .failed (ts, us) => .ok (.failed ({ sets := ts }, { sets := us }))
  | .done (ts, us) left => .ok (.done ({ sets := ts }, { sets := us }) left)

/-- One operation on a family of containers. An exception in the constructor destroys the submaps that are there. -/
def wstepA [BEq α] (b : Nat) (w : Nat → PTbl α) (op : PWOp α κ) : Res (Tried (Nat → PTbl α) ((Nat → PTbl α) × Resp α)) :=
  match op with
  | .on i op => do
    match ← (w i).pstepA P b op with
    | .failed p => .ok (.failed (put w i p))
    | .done (p, r) left => .ok (.done (put w i p, r) left)
  | .create i n => do
    match ← createA P b n with
    | .failed tmp => do
      let _ ← mapRes Tbl.destroySlots tmp.sets
      .ok (.failed w)
    | .done tmp left => do
      let (p, _) ← moveAssign (w i) tmp
      .ok (.done (put w i p, .unit) left)
  | .copy i j => do
    match ← copyAssignA P b (w i) (w j) with
    | .failed p => .ok (.failed (put w i p))
    | .done p left => .ok (.done (put w i p, .unit) left)
  | .merge i j =>
    if i = j then .ok (.done (w, .unit) b)
    else do
      match ← mergeA P b (w i) (w j) with
      | .failed (p, q) => .ok (.failed (put (put w i p) j q))
      | .done (p, q) left => .ok (.done (put (put w i p) j q, .unit) left)
  | op => Res.plain b (wstep P w op)

/-- A whole history; each call comes with the number of allocations that succeed during it. The caller catches every
exception and goes on. -/
def wrunA [BEq α] (w : Nat → PTbl α) : List (PWOp α κ × Nat) → Res ((Nat → PTbl α) × List (Out α))
  | [] => .ok (w, [])
  | (op, b) :: calls => do
    match ← wstepA P b w op with
    | .failed w => do
      let (w, os) ← wrunA w calls
      .ok (w, .badAlloc :: os)
    | .done (w, r) _ => do
      let (w, os) ← wrunA w calls
      .ok (w, .ok r :: os)

end PTbl
end Gtl.Parallel
