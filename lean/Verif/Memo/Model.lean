import Verif.Parallel.Table
import Verif.Spec.Memo
/-!
# Model of `mt_memoize` (memoize.hpp:74-140) used from one thread
-/

namespace Gtl.Memo

open Gtl.Swiss Gtl.Parallel
open Gtl.Spec.Memo (Prog Op Resp)

/-- Template parameters: hash of an argument tuple (already mixed), equality, `2^N` submaps, group implementation, mutex
type. -/
structure MCfg (κ : Type) where
  hash : κ → Nat
  eqv : κ → κ → Bool
  N : Nat
  G : Group
  mtx : Mtx

variable {κ ν : Type}

/-- `map_type` (memoize.hpp:79-85): argument tuples to results. -/
def MCfg.P (M : MCfg κ) : PCfg (κ × ν) κ :=
  { C := { key := Prod.fst, hash := M.hash, eqv := M.eqv, G := M.G }, N := M.N, mtx := M.mtx }

section
variable (M : MCfg κ)

/-- Run a body with `rec` for its calls of the memoized function. Returns the map, the value and the arguments at which
a body was run to its end meanwhile. -/
def exec (rec : PTbl (κ × ν) → κ → Res (PTbl (κ × ν) × ν × List κ)) :
    PTbl (κ × ν) → Prog κ ν → Res (PTbl (κ × ν) × ν × List κ)
  | p, .ret v => .ok (p, v, [])
  | p, .call k next => do
    let (p, v, tr) ← rec p k
    let (p, w, tr') ← exec rec p (next v)
    .ok (p, w, tr ++ tr')

/-- `operator()` with `NullMutex` or `recursive == true` (memoize.hpp:120-130): look the key up, otherwise run the
function, which may call the memoized function again, and `emplace` the result. `n` bounds the depth of the recursion;
running into the bound stands for not terminating. -/
def call (body : κ → Prog κ ν) : Nat → PTbl (κ × ν) → κ → Res (PTbl (κ × ν) × ν × List κ)
  | 0, _, _ => .hang
  | n + 1, p, k => do
    let (p, r) ← p.pstep M.P (.ifContains k)
    match r with
    | .elem (some e) => .ok (p, e.2, [])
    | .elem none => do
      let (p, v, tr) ← exec (call body n) p (body k)
      let (p, _) ← p.pstep M.P (.base (.insert (k, v)))
      .ok (p, v, tr ++ [k])
    | _ => .ub

/-- One call on the memoized function: `operator()`, `contains` (93-98), `clear`, `reserve`, `size` (133-135). The last
component is for the observer: the arguments at which the body was run. -/
def step (body : κ → Prog κ ν) (n : Nat) (p : PTbl (κ × ν)) : Op κ → Res (PTbl (κ × ν) × Resp ν × List κ)
  | .call k => do
    let (p, v, tr) ← call M body n p k
    .ok (p, .val v, tr)
  | .contains k => do
    let (p, r) ← p.pstep M.P (.ifContains k)
    match r with
    | .elem (some e) => .ok (p, .opt (some e.2), [])
    | .elem none => .ok (p, .opt none, [])
    | _ => .ub
  | .clear => do
    let (p, _) ← p.pstep M.P (.base .clear)
    .ok (p, .unit, [])
  | .reserve m => do
    let (p, _) ← p.pstep M.P (.base (.reserve m))
    .ok (p, .unit, [])
  | .size => .ok (p, .nat p.size, [])

/-- A history. -/
def run (body : κ → Prog κ ν) (n : Nat) : PTbl (κ × ν) → List (Op κ) → Res (PTbl (κ × ν) × List (Resp ν × List κ))
  | p, [] => .ok (p, [])
  | p, op :: ops => do
    let (p, r) ← step M body n p op
    let (p, rs) ← run body n p ops
    .ok (p, r :: rs)

end
end Gtl.Memo
