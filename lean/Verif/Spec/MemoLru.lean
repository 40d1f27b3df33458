import Verif.Spec.Lru
/-!
# Specification: a memoized function that remembers only the arguments used last

This file knows nothing about hash tables or linked lists.
-/

namespace Gtl.Spec.MemoLru

open Gtl.Spec.Lru (touch)

variable {κ ν : Type}

/-- Calls on a memoized function. `setSize` is `set_cache_size`. -/
inductive Op (κ : Type) where
  | call (k : κ)
  | contains (k : κ)
  | setSize (n : Nat)
  | reserve (n : Nat)
  | size
  deriving DecidableEq

/-- What the caller sees; for `call` also, to an observer, whether the function was run. -/
inductive Resp (ν : Type) where
  | val (v : ν) (ran : Bool)
  | opt (o : Option ν)
  | unit
  | nat (n : Nat)
  deriving DecidableEq

/-- The arguments of the calls in one shard, each once, the most recent one first. -/
def recent (eqv : κ → κ → Bool) (shard : κ → Nat) (i : Nat) (h : List (Op κ)) : List κ :=
  h.foldl (fun r op => match op with
    | .call k => if shard k = i then touch eqv r k else r
    | _ => r) []

/-! ## A reference implementation: per shard a list of entries, most recently used first -/

section
variable (eqv : κ → κ → Bool) (shard : κ → Nat) (S : Nat) (f : κ → ν)

/-- One call. Each of the `S` shards keeps one entry less than its share of the configured size. -/
def step (c : Lru.Cache κ ν) : Op κ → Lru.Cache κ ν × Resp ν
  | .call k =>
    ({ c with shards := put c.shards (shard k) (Lru.insert eqv (c.max / S - 1) (c.shards (shard k)) k (f k)) },
     .val (f k) (lookup Prod.fst eqv (c.shards (shard k)) k).isNone)
  | .contains k => (c, .opt ((lookup Prod.fst eqv (c.shards (shard k)) k).map Prod.snd))
  | .setSize n => ({ c with max := n }, .unit)
  | .reserve _ => (c, .unit)
  | .size => (c, .nat ((List.range S).map (fun i => (c.shards i).length)).sum)

def run (c : Lru.Cache κ ν) : List (Op κ) → Lru.Cache κ ν × List (Resp ν)
  | [] => (c, [])
  | op :: ops =>
    let r := step eqv shard S f c op
    let s := run r.1 ops
    (s.1, r.2 :: s.2)

end
end Gtl.Spec.MemoLru
