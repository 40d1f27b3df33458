import Verif.Parallel.Table
import Verif.Swiss.Functor
/-!
# Parallel containers that hold different hash function objects

Every submap has its own copy of the function object; the constructors give all of them the same one (phmap.hpp:3411-3420) and
all calls keep it so. Simplification: one object stands for all copies.
-/

namespace Gtl.Parallel

open Gtl.Swiss
open Gtl.Spec (POp Resp FOp FResp put)

/-- A parallel container: the function object in its submaps (phmap.hpp:4435) and the submaps. -/
structure PBox (S α : Type) where
  fn : S
  tbl : PTbl α

/-- A loop over two arrays of submaps, which an exception (`none`) ends. -/
def zipOpt {β β' γ : Type} (f : β → β' → Res (Option γ)) : List β → List β' → Res (Option (List γ))
  | [], _ => .ok (some [])
  | _ :: _, [] => .ub
  | b :: bs, b' :: bs' => do
    match ← f b b' with
    | none => .ok none
    | some c => do
      match ← zipOpt f bs bs' with
      | none => .ok none
      | some cs => .ok (some (c :: cs))

namespace PBox
variable {S α κ : Type} (P : PCfg α κ) (F : Fns S κ)

/-- The template parameters with the hash function of an object in state `s`. -/
def pcfg (s : S) : PCfg α κ := { P with C := Box.cfg P.C F s }

/-- Constructors (phmap.hpp:3407-3420). -/
def make (s : S) (n : Nat) : PBox S α := { fn := s, tbl := PTbl.withBuckets P n }

/-- One call. The calls with a key compute `hash(key)` (phmap.hpp:4287-4290) before anything else. -/
def step (b : PBox S α) (op : POp α κ) : Res (PBox S α × FResp S α) :=
  if (F.call b.fn).isSome || !op.needsHash then do
    let (p, r) ← b.tbl.pstep (pcfg P F b.fn) op
    .ok ({ b with tbl := p }, .got r)
  else .ok (b, .threw)

/-- Copy assignment (phmap.hpp:3529-3533): submap by submap, with the function objects. -/
def copyAssign (a that : PBox S α) : Res (Option (PBox S α)) := do
  match ← zipOpt (fun t u => Box.copyAssign P.C F ⟨a.fn, t⟩ ⟨that.fn, u⟩) a.tbl.sets that.tbl.sets with
  | none => .ok none
  | some bs => .ok (some { fn := that.fn, tbl := { sets := bs.map Box.tbl } })

/-- Move assignment (phmap.hpp:3535-3541): submap by submap, and the function objects are moved. -/
def moveAssign (a that : PBox S α) : Res (PBox S α × PBox S α) := do
  let (p, q) ← PTbl.moveAssign a.tbl that.tbl
  .ok ({ fn := that.fn, tbl := p }, { fn := F.moved that.fn, tbl := q })

/-- Move construction (phmap.hpp:3519-3527): each submap is made with `raw_hash_set(raw_hash_set&&, alloc)` (1849-1861), which
copies the function object and so leaves it in place. -/
def moveInit (that : PBox S α) : Res (PBox S α × PBox S α) := do
  let (p, q) ← PTbl.moveAssign (PTbl.empty P) that.tbl
  .ok ({ fn := that.fn, tbl := p }, { fn := that.fn, tbl := q })

/-- `swap(that)` (phmap.hpp:4127-4138): each submap with its function object. -/
def swap (a b : PBox S α) : Res (PBox S α × PBox S α) := do
  let (p, q) ← PTbl.swap a.tbl b.tbl
  .ok ({ fn := b.fn, tbl := p }, { fn := a.fn, tbl := q })

/-- `merge(src)` (phmap.hpp:4101-4109): `sets_[i].set_.merge(src.sets_[i].set_)`. When the function object throws nothing was
moved before. -/
def merge (a src : PBox S α) : Res (Option (PBox S α × PBox S α)) := do
  match ← zipOpt (fun t u => Box.merge P.C F ⟨a.fn, t⟩ ⟨src.fn, u⟩) a.tbl.sets src.tbl.sets with
  | none => .ok none
  | some bs => .ok (some ({ a with tbl := { sets := bs.map (fun x => x.1.tbl) } },
      { src with tbl := { sets := bs.map (fun x => x.2.tbl) } }))

/-- `std::equal` over the submaps (phmap.hpp:4275-4277). -/
def equalSets [BEq α] (s s' : S) : List (Tbl α) → List (Tbl α) → Res (Option Bool)
  | [], _ => .ok (some true)
  | _ :: _, [] => .ub
  | t :: ts, u :: us => do
    match ← Box.equal P.C F ⟨s, t⟩ ⟨s', u⟩ with
    | none => .ok none
    | some true => equalSets s s' ts us
    | some false => .ok (some false)

/-- One call on a family of containers. -/
def wstep [BEq α] (w : Nat → PBox S α) : FOp S (POp α κ) → Res ((Nat → PBox S α) × FResp S α)
  | .on i op => do
    let (b, r) ← (w i).step P F op
    .ok (put w i b, r)
  | .create i s n => do
    let (b, _) ← moveAssign F (w i) (make P s n)
    .ok (put w i b, .got .unit)
  | .copy i j => do
    match ← copyAssign P F (w i) (w j) with
    | none => .ok (w, .threw)
    | some b => .ok (put w i b, .got .unit)
  | .take i j => do
    let (tmp, c) ← moveInit P (w j)
    let w := put w j c
    let (b, _) ← moveAssign F (w i) tmp
    .ok (put w i b, .got .unit)
  | .move i j =>
    if i = j then do
      -- each submap is move-assigned to itself: `tmp(std::move(that)); swap(tmp)` restores it
      let ts ← mapRes (fun t => Box.moveSelf F ⟨(w i).fn, t⟩) (w i).tbl.sets
      .ok (put w i { fn := (w i).fn, tbl := { sets := ts.map Box.tbl } }, .got .unit)
    else do
      let (b, c) ← moveAssign F (w i) (w j)
      .ok (put (put w j c) i b, .got .unit)
  | .swap i j =>
    if i = j ∧ P.mtx ≠ .null then .ub
    else do
      let (b, c) ← swap (w i) (w j)
      .ok (put (put w i b) j c, .got .unit)
  | .merge i j =>
    if i = j then .ok (w, .got .unit)
    else do
      match ← merge P F (w i) (w j) with
      | none => .ok (w, .threw)
      | some (b, c) => .ok (put (put w i b) j c, .got .unit)
  | .equal i j =>
    if i = j ∧ P.mtx ≠ .null then .ub
    else do
      match ← equalSets P F (w i).fn (w j).fn (w i).tbl.sets (w j).tbl.sets with
      | none => .ok (w, .threw)
      | some r => .ok (w, .got (.bool r))
  | .fn i => .ok (w, .fn (w i).fn)

/-- A history. -/
def wrun [BEq α] (w : Nat → PBox S α) : List (FOp S (POp α κ)) → Res ((Nat → PBox S α) × List (FResp S α))
  | [] => .ok (w, [])
  | op :: ops => do
    let (w, r) ← wstep P F w op
    let (w, rs) ← wrun w ops
    .ok (w, r :: rs)

end PBox
end Gtl.Parallel
