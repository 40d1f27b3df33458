import Verif.Spec.MemoLru
/-!
# Specification: calls on a memoized function with a size limit that may throw

The calls of `Verif.Spec.MemoLru`, and calls during which the function throws if it is run. What a user relies on is that such a
call forgets nothing. `e` is the number by which `size()` may be wrong.
-/

namespace Gtl.Spec.MemoLru

variable {κ ν : Type}

inductive TOp (κ : Type) where
  /-- any call during which nothing throws -/
  | call (op : Op κ)
  /-- a call at `k` during which the function throws, if it is run at all -/
  | throwing (k : κ)
  deriving DecidableEq

/-- The answer of a call, or the exception. -/
inductive TResp (ν : Type) where
  | got (r : Resp ν)
  | threw
  deriving DecidableEq

section
variable (eqv : κ → κ → Bool) (shard : κ → Nat) (S : Nat) (f : κ → ν)

/-- Is there a value for `k`? -/
def has (c : Lru.Cache κ ν) (k : κ) : Bool := (lookup Prod.fst eqv (c.shards (shard k)) k).isSome

/-- Entries and answer when a call that throws forgets nothing. -/
def tstep (c : Lru.Cache κ ν) : TOp κ → Lru.Cache κ ν × TResp ν
  | .call op => ((step eqv shard S f c op).1, .got (step eqv shard S f c op).2)
  | .throwing k =>
    if has eqv shard c k then ((step eqv shard S f c (.call k)).1, .got (step eqv shard S f c (.call k)).2)
    else (c, .threw)

/-- How far `size()` is off after the call. -/
def excessAfter (c : Lru.Cache κ ν) (e : Nat) : TOp κ → Nat
  | .call _ => e
  | .throwing k => if has eqv shard c k then e else e + 1

/-- `size()` answers `e` too much. -/
def offBy (e : Nat) : TOp κ → TResp ν → TResp ν
  | .call .size, .got (.nat n) => .got (.nat (n + e))
  | _, r => r

/-- The answers of a history. -/
def trun (c : Lru.Cache κ ν) (e : Nat) : List (TOp κ) → List (TResp ν)
  | [] => []
  | op :: ops => offBy e op (tstep eqv shard S f c op).2 ::
      trun (tstep eqv shard S f c op).1 (excessAfter eqv shard c e op) ops

end

/-- The calls during which an exception may be thrown. -/
def TOp.Throws : TOp κ → Bool
  | .throwing _ => true
  | _ => false

end Gtl.Spec.MemoLru
