import Verif.Lru.Threads
/-!
# Vocabulary of the properties of caches and memoized functions used from many threads
-/

namespace Gtl.Lru

open Gtl.Parallel

variable {κ ν : Type}

/-- The reference cache as a sequential specification. -/
def semL (L : LCfg κ) {Q : COp κ ν → Prop} (a : Spec.Lru.Cache κ ν) (o : { o // Q o }) (a' : Spec.Lru.Cache κ ν)
    (r : Spec.Lru.Resp ν) : Prop :=
  (a', r) = a.step L.eqv L.shard (2 ^ L.N) o.1.seq

/-- The reference memoized function as a sequential specification. -/
def semM (L : LCfg κ) (f : κ → ν) (a : Spec.Lru.Cache κ ν) (o : MOp κ) (a' : Spec.Lru.Cache κ ν) (r : Spec.MemoLru.Resp ν) : Prop :=
  (a', r) = Spec.MemoLru.step L.eqv L.shard (2 ^ L.N) f a o.seq

/-- The mutex really excludes: it has no shared locks, or it has and nobody calls `get`. -/
def Guarded (mtx : Mtx) (Q : COp κ ν → Prop) : Prop := mtx = .excl ∨ mtx = .shared ∧ ∀ k, ¬ Q (.get k)

end Gtl.Lru
