import Verif.Props.HashDefs
import Verif.Memo.ConcModel
import Verif.Memo.LruModel
import Verif.Conc.Container
/-!
# Vocabulary of the properties of memoized functions
-/

namespace Gtl.Memo

open Gtl.Swiss Gtl.Parallel Gtl.Conc
open Gtl.Spec.Memo (Prog Op Resp Value)

variable {κ ν : Type}

/-- Equal arguments have equal bodies. -/
def Respects (eqv : κ → κ → Bool) (body : κ → Prog κ ν) : Prop := ∀ k l, eqv k l = true → body k = body l

/-- Make the calls `ops` on a newly memoized function; `n` bounds the depth of the recursion. The answers, each with the
arguments at which the function was run during the call. -/
def history (M : MCfg κ) (body : κ → Prog κ ν) (n : Nat) (ops : List (Op κ)) : Res (List (Resp ν × List κ)) := do
  let (_, rs) ← run M body n (PTbl.empty M.P) ops
  .ok rs

/-! ## Many threads, recursive functions -/

/-- The answer is right. -/
def RightC (body : κ → Prog κ ν) : COp κ → Resp ν → Prop
  | .call k, r => ∃ v, r = .val v ∧ Value body k v
  | .contains k, r => ∃ o, r = .opt o ∧ ∀ v, o = some v → Value body k v
  | .clear, r => r = .unit

/-- Calls that terminate. -/
def Ends (body : κ → Prog κ ν) : COp κ → Prop
  | .call k => ∃ v, Value body k v
  | _ => True

/-- Code of the calls that terminate, with enough depth. -/
def codeC (M : MCfg κ) (X : Cut κ ν) (body : κ → Prog κ ν) (depth : κ → Nat) (o : { o // Ends body o }) : Code (Tbl (κ × ν)) (Resp ν) :=
  codeOf M X body depth o.1

/-! ## Many threads, functions that are not recursive -/

/-- The specification: `D` are the arguments evaluated so far. -/
def semO (eqv : κ → κ → Bool) (f : κ → ν) (D : List κ) (o : OOp κ) (D' : List κ) (r : ORes ν) : Prop :=
  match o with
  | .call k =>
    if D.any (fun k' => eqv k' k) then D' = D ∧ r = .val (f k) false
    else D' = k :: D ∧ r = .val (f k) true
  | .contains k => D' = D ∧ r = .opt (if D.any (fun k' => eqv k' k) then some (f k) else none)

/-- A call for `k` that ran the function. -/
def ranFor (eqv : κ → κ → Bool) (k : κ) : OOp κ × ORes ν → Bool
  | (.call k', .val _ true) => eqv k' k
  | _ => false

/-- A call for `k`. -/
def callFor (eqv : κ → κ → Bool) (k : κ) : OOp κ × ORes ν → Bool
  | (.call k', _) => eqv k' k
  | _ => false

/-! ## Size limit -/

/-- Memoize `f` with room for `n` values and make the calls `ops`. The answers. -/
def lruHistory (L : Lru.LCfg κ) (f : κ → ν) (n : Nat) (ops : List (Spec.MemoLru.Op κ)) : Res (List (Spec.MemoLru.Resp ν)) := do
  let c ← Lru.Cache.new L n
  let (_, rs) ← lruRun L f c 0 ops
  .ok rs

/-- Values kept per shard. -/
def kept (L : Lru.LCfg κ) (n : Nat) : Nat := n / 2 ^ L.N - 1

end Gtl.Memo
