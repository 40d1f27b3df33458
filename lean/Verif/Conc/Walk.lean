import Verif.Conc.Share
import Verif.Spec.Walk
/-!
# Model of traversals of parallel containers whose callbacks throw (phmap.hpp:3979-3994, 4020-4034)

The calls of `Verif.Conc.Share`, and `for_each`, `for_each_m`, `with_submap` and `with_submap_m` with callbacks that throw.
The lock is held by a guard object in the body of the loop (3982, 3991) or of the function (4023, 4031); its destructor
releases it when the exception leaves the scope, and the loop over the submaps is left.

`std::for_each` takes the function object by value, and `fCallback` is passed as an lvalue (3983, 3992): each submap is
shown to a fresh copy.

Not modelled: callbacks that throw in the overloads with an execution policy (`std::terminate`), and callbacks of
`with_submap_m` that throw from inside a call on the submap.
-/

namespace Gtl.Conc.Multi

open Gtl.Swiss Gtl.Parallel
open Gtl.Spec (Op Resp)
open Gtl.Spec.Walk (Cb Ans)

variable {α κ : Type} (P : PCfg α κ)

/-- `std::for_each(begin, end, f)` with a callback that only looks at the elements and may throw. -/
def visitLoop (run : List α → α → α × Bool) (t : Tbl α) : Nat → List α → Nat → Res (List (α × α) × Bool)
  | 0, _, _ => .hang
  | n + 1, before, pos =>
    if pos = t.capacity then .ok ([], false)
    else do
      let a ← t.readSlot pos
      if (run before a).2 then .ok ([(a, (run before a).1)], true)
      else do
        let q ← t.next P.C pos
        let (ps, b) ← visitLoop run t n (before ++ [a]) q
        .ok ((a, (run before a).1) :: ps, b)

/-- The body of the loop of `for_each` (phmap.hpp:3983), and the callback of `with_submap` (4024). -/
def visitUntil (before : List α) (run : List α → α → α × Bool) (t : Tbl α) : Res (Tbl α × Ans α) := do
  let b ← t.begin_ P.C
  let (ps, thr) ← visitLoop P run t t.fuel before b
  .ok (t, .shown ps thr)

/-- `std::for_each(begin, end, f)` with a callback that assigns to the elements and may throw. -/
def alterLoop (run : List α → α → α × Bool) : Nat → Tbl α → List α → Nat → Res (Tbl α × List (α × α) × Bool)
  | 0, _, _, _ => .hang
  | n + 1, t, before, pos =>
    if pos = t.capacity then .ok (t, [], false)
    else do
      let a ← t.readSlot pos
      let t ← t.assignAt pos (fun a => (run before a).1)
      if (run before a).2 then .ok (t, [(a, (run before a).1)], true)
      else do
        let q ← t.next P.C pos
        let (t, ps, b) ← alterLoop run n t (before ++ [a]) q
        .ok (t, (a, (run before a).1) :: ps, b)

/-- The body of the loop of `for_each_m` (phmap.hpp:3992). -/
def alterUntil (before : List α) (run : List α → α → α × Bool) (t : Tbl α) : Res (Tbl α × Ans α) := do
  let b ← t.begin_ P.C
  let (t, ps, thr) ← alterLoop P run t.fuel t before b
  .ok (t, .shown ps thr)

/-- `for (auto& inner : sets_) { lock; std::for_each(.., fCallback); }` (phmap.hpp:3981-3984, 3990-3993) for the submaps
`i, i+1, ..`: the section is left with its lock released, whether the callback throws or not. -/
def eachUntil {σ : Type} (gs : Nat → List (List (Nat × Mode))) (rel : Nat → List (Nat × Mode)) (own : Bool)
    (b : Nat → List α → Code σ (Ans α)) : Nat → Nat → List (α × α) → Code σ (Ans α)
  | 0, _, ps => .ret (.shown ps false)
  | n + 1, i, ps => .sec (gs i) (rel i) (b i (if own then [] else ps.map (·.1))) fun x =>
      if x.threw then .ret (.shown (ps ++ x.pairs) true) else eachUntil gs rel own b n (i + 1) (ps ++ x.pairs)

/-- The code is a loop over the submaps of container `c` with locks of mode `m` that shows them to `cb`. -/
def SweepUntil (m : Mode) (c : Nat) (cb : Cb α)
    (f : List α → (List α → α → α × Bool) → Tbl α → Res (Tbl α × Ans α)) (code : Code (Tbl α) (Ans α)) : Prop :=
  ∃ b, (∀ i before, i < 2 ^ P.N → Does [(cell P c i, m)] (at1 (cell P c i) (f before cb.run)) (b i before)) ∧
    code = eachUntil (one P m c) (fun i => [(cell P c i, m)]) cb.own b (2 ^ P.N) 0 []

/-- `code` is code for the call. -/
def WalkCode [BEq α] (o : Spec.Walk.Call α κ) (code : Code (Tbl α) (Ans α)) : Prop :=
  match o with
  | .base o => ∃ c, CodeFor P o c ∧ code = c.bind fun r => .ret (.ret r)
  -- phmap.hpp:3979-3985
  | .visit c cb => SweepUntil P (readMode P) c cb (visitUntil P) code
  -- phmap.hpp:3988-3994
  | .alter c cb => SweepUntil P .excl c cb (alterUntil P) code
  -- phmap.hpp:4020-4025
  | .look c i run => ∃ b, Does [(cell P c i, readMode P)] (at1 (cell P c i) (visitUntil P [] run)) b ∧
      code = .sec (one P (readMode P) c i) [(cell P c i, readMode P)] b .ret
  -- phmap.hpp:4028-4033
  | .script c i ops => ∃ b, Does [(cell P c i, .excl)] (at1 (cell P c i) (scriptSub P ops)) b ∧
      code = .sec (one P .excl c i) [(cell P c i, .excl)] b fun rs => .ret (.cut rs)

/-- Which calls may be made concurrently. -/
def WalkSafe : Spec.Walk.Call α κ → Prop
  | .base o => Threadsafe o
  | _ => True

end Gtl.Conc.Multi
