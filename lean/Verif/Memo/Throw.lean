import Verif.Memo.Model
import Verif.Swiss.Throw
import Verif.Spec.MemoThrow
/-!
# Model of `mt_memoize` (memoize.hpp:74-140) when the function throws
-/

namespace Gtl.Memo

open Gtl.Swiss Gtl.Parallel
open Gtl.Spec.Memo (Prog TOp TResp)

variable {κ ν : Type}

/-- How a body ends: with a value, and the number of steps left before the exception; or with the exception. -/
inductive Out (ν : Type) where
  | val (v : ν) (left : Option Nat)
  | threw
  deriving DecidableEq

section
variable (M : MCfg κ)

/-- Run a body with `rec` for its calls of the memoized function, as `exec`; the code throws after `j` steps. The exception
leaves every body that is running. -/
def execT (rec : PTbl (κ × ν) → Option Nat → κ → Res (PTbl (κ × ν) × Out ν × List κ)) :
    Prog κ ν → PTbl (κ × ν) → Option Nat → Res (PTbl (κ × ν) × Out ν × List κ)
  | .ret v, p, j => match j with
    | some 0 => .ok (p, .threw, [])
    | j => .ok (p, .val v (j.map Nat.pred), [])
  | .call k next, p, j => match j with
    | some 0 => .ok (p, .threw, [])
    | j => do
      let (p, o, tr) ← rec p (j.map Nat.pred) k
      match o with
      | .threw => .ok (p, .threw, tr)
      | .val v j => do
        let (p, o, tr') ← execT rec (next v) p j
        .ok (p, o, tr ++ tr')

/-- `operator()` with `NullMutex` or `recursive == true` (memoize.hpp:120-130), as `call`: an exception of `_f` (127) leaves
the function before `emplace` (128). -/
def callT (body : κ → Prog κ ν) : Nat → PTbl (κ × ν) → Option Nat → κ → Res (PTbl (κ × ν) × Out ν × List κ)
  | 0, _, _, _ => .hang
  | n + 1, p, j, k => do
    let (p, r) ← p.pstep M.P (.ifContains k)
    match r with
    | .elem (some e) => .ok (p, .val e.2 j, [])
    | .elem none => do
      let (p, o, tr) ← execT (callT body n) (body k) p j
      match o with
      | .threw => .ok (p, .threw, tr)
      | .val v j => do
        let (p, _) ← p.pstep M.P (.base (.insert (k, v)))
        .ok (p, .val v j, tr ++ [k])
    | _ => .ub

/-- The calls other than `operator()` (memoize.hpp:93-98, 133-135). -/
def restT (p : PTbl (κ × ν)) : TOp κ → Res (PTbl (κ × ν) × TResp ν)
  | .call _ _ => .ub
  | .contains k => do
    let (p, r) ← p.pstep M.P (.ifContains k)
    match r with
    | .elem (some e) => .ok (p, .opt (some e.2))
    | .elem none => .ok (p, .opt none)
    | _ => .ub
  | .clear => do
    let (p, _) ← p.pstep M.P (.base .clear)
    .ok (p, .unit)
  | .reserve m => do
    let (p, _) ← p.pstep M.P (.base (.reserve m))
    .ok (p, .unit)
  | .size => .ok (p, .nat p.size)

/-- One call on the memoized function. The last component is for the observer: the arguments at which the body was run to its
end. -/
def stepT (body : κ → Prog κ ν) (n : Nat) (p : PTbl (κ × ν)) : TOp κ → Res (PTbl (κ × ν) × TResp ν × List κ)
  | .call k fail => do
    let (p, o, tr) ← callT M body n p fail k
    match o with
    | .threw => .ok (p, .threw, tr)
    | .val v _ => .ok (p, .val v, tr)
  | op => do
    let (p, r) ← restT M p op
    .ok (p, r, [])

/-- A history. -/
def runT (body : κ → Prog κ ν) (n : Nat) : PTbl (κ × ν) → List (TOp κ) → Res (PTbl (κ × ν) × List (TResp ν × List κ))
  | p, [] => .ok (p, [])
  | p, op :: ops => do
    let (p, r) ← stepT M body n p op
    let (p, rs) ← runT body n p ops
    .ok (p, r :: rs)

/-! ## A function that is not recursive, with a mutex -/

/-- `operator()` with a mutex and `recursive == false` (memoize.hpp:102-118) on the submap of the key; `v` is the value of the
function, or `none` when it throws. The function is run (115) by `lazy_emplace_l` (phmap.hpp:3943-3969) between
`prepare_insert` and the construction of the element: after an exception the slot is neither filled nor given back. -/
def subCallN (t : Tbl (κ × ν)) (k : κ) (v : Option ν) : Res (Tbl (κ × ν) × TResp ν) := do
  let hashval := M.hash k
  match ← t.findHash (M.P (ν := ν)).C k hashval with
  | some off => do
    let e ← t.readSlot off
    .ok (t, .val e.2)
  | none => do
    let (t, off) ← t.prepareInsert (M.P (ν := ν)).C hashval
    match v with
    | none => .ok (t, .threw)
    | some v => do
      let t ← t.constructSlot off (k, v)
      let t ← t.setCtrl M.G.W off (H2 hashval)
      .ok (t, .val v)

/-- One call on the memoized function. -/
def stepN (f : κ → ν) (p : PTbl (κ × ν)) : TOp κ → Res (PTbl (κ × ν) × TResp ν)
  | .call k fail => p.withSub (subidx M.N (M.hash k)) (fun t => subCallN M t k (match fail with
      | none => some (f k)
      | some _ => none))
  | op => restT M p op

/-- A history. -/
def runN (f : κ → ν) : PTbl (κ × ν) → List (TOp κ) → Res (PTbl (κ × ν) × List (TResp ν))
  | p, [] => .ok (p, [])
  | p, op :: ops => do
    let (p, r) ← stepN M f p op
    let (p, rs) ← runN f p ops
    .ok (p, r :: rs)

end
end Gtl.Memo
