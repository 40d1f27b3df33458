import Verif.Props.HashDefs
import Verif.Lru.Model
/-!
# Vocabulary of the properties of the LRU cache
-/

namespace Gtl.Props.Lru

open Gtl.Swiss Gtl.Lru
open Gtl.Spec.Lru (Op Resp)

variable {κ ν : Type}

/-- Construct a cache of size `n` and make the calls `ops` on it. -/
def history (L : LCfg κ) (n : Nat) (ops : List (Op κ ν)) : Res (Cache κ ν × List (Resp ν)) := do
  let c ← Cache.new L n
  c.run L 0 ops

/-- The answers to the calls. -/
def answers (L : LCfg κ) (n : Nat) (ops : List (Op κ ν)) : Res (List (Resp ν)) := do
  let (_, rs) ← history L n ops
  .ok rs

/-- `lru_cache d(c)`. -/
def copyOf (L : LCfg κ) (c : Cache κ ν) : Res (Cache κ ν) := (Cache.blank L).copyAssign L c

/-- `lru_cache d(std::move(c))`: the new cache and what is left of the old one. -/
def moveOf (L : LCfg κ) (c : Cache κ ν) : Res (Cache κ ν × Cache κ ν) := (Cache.blank L).moveAssign c

/-- A number of list node that was not used in `ops`. -/
def fresh (ops : List (Op κ ν)) : Nat := ops.length

/-- Entries per shard for a cache of configured size `n`. -/
def perShard (L : LCfg κ) (n : Nat) : Nat := n / 2 ^ L.N

end Gtl.Props.Lru
