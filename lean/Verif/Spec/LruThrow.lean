import Verif.Spec.Lru
/-!
# Specification: a cache some of whose insertions throw

The calls of `Verif.Spec.Lru`, and insertions during which something throws. A cache is a list of entries for each shard, most
recently used first. An entry is either found by its key or a remainder: an entry that takes up room until it is the last one
and is dropped, but that is not found. This file knows nothing about hash tables or linked lists.
-/

namespace Gtl.Spec.LruThrow

open Gtl.Spec.Lru (Resp)

variable {κ ν : Type}

/-- What throws during an insertion. -/
inductive Fault where
  /-- copying the value or the key into the cache, or getting memory for the entry -/
  | value
  /-- copying the key a second time, into the index -/
  | entry
  /-- copying the key of the entry that is to be dropped -/
  | victim
  /-- copying this key once more -/
  | answer
  deriving DecidableEq

inductive TOp (κ ν : Type) where
  /-- any call during which nothing throws -/
  | call (op : Lru.Op κ ν)
  /-- `insert(k, v)` during which `w` throws, if it comes to that -/
  | throwing (k : κ) (v : ν) (w : Fault)
  deriving DecidableEq

/-- The answer of a call, or the exception. -/
inductive TResp (ν : Type) where
  | got (r : Lru.Resp ν)
  | threw
  deriving DecidableEq

/-- The calls during which an exception may be thrown. -/
def TOp.Throws : TOp κ ν → Bool
  | .throwing _ _ _ => true
  | _ => false

/-- The call goes through without an exception, or the exception is of kind `value`. -/
def TOp.Mild : TOp κ ν → Bool
  | .throwing _ _ w => w == .value
  | _ => true

/-- The calls that may throw after the last entry has been dropped. -/
def TOp.Late : TOp κ ν → Bool
  | .throwing _ _ w => w == .answer
  | _ => false

section
variable (eqv : κ → κ → Bool)

/-- The value of the last insertion for `k` that did not throw, if any. `h` lists the calls with their answers. -/
def latest (h : List (TOp κ ν × TResp ν)) (k : κ) : Option ν :=
  h.foldl (fun o e => match e with
    | (.call (.insert k' v), _) => if eqv k' k then some v else o
    | (.throwing k' v _, .got _) => if eqv k' k then some v else o
    | _ => o) none

/-! ## The reference cache -/

/-- The entry for `k`. -/
def find (l : List ((κ × ν) × Bool)) (k : κ) : Option ((κ × ν) × Bool) := l.find? (fun e => e.2 && eqv e.1.1 k)

/-- All but the entry for `k`. -/
def rest (l : List ((κ × ν) × Bool)) (k : κ) : List ((κ × ν) × Bool) := l.filter (fun e => !(e.2 && eqv e.1.1 k))

/-- The entry for `k` is not found any more. -/
def unlink (l : List ((κ × ν) × Bool)) (k : κ) : List ((κ × ν) × Bool) :=
  l.map (fun e => (e.1, e.2 && !eqv e.1.1 k))

/-- Drop the last entry and forget its key. -/
def evict (l : List ((κ × ν) × Bool)) : List ((κ × ν) × Bool) :=
  match l.getLast? with
  | none => l
  | some d => unlink eqv l.dropLast d.1.1

/-- Ask for `k`: the entry found goes to the front. -/
def get (l : List ((κ × ν) × Bool)) (k : κ) : List ((κ × ν) × Bool) × Option ν :=
  match find eqv l k with
  | some e => (e :: rest eqv l k, some e.1.2)
  | none => (l, none)

/-- Put an entry in front; if it is new and there are now more than `cap` entries, drop the last one. -/
def insert (cap : Nat) (l : List ((κ × ν) × Bool)) (k : κ) (v : ν) : List ((κ × ν) × Bool) :=
  match find eqv l k with
  | some e => ((e.1.1, v), true) :: rest eqv l k
  | none => if l.length + 1 > cap then evict eqv (((k, v), true) :: l) else ((k, v), true) :: l

/-- An insertion during which `w` throws if it comes to that; the second component says whether it did. -/
def throwing (cap : Nat) (l : List ((κ × ν) × Bool)) (k : κ) (v : ν) : Fault → List ((κ × ν) × Bool) × Bool
  | .value => (l, true)
  | .entry => if (find eqv l k).isSome then (insert eqv cap l k v, false) else (((k, v), false) :: l, true)
  | .victim =>
    if (find eqv l k).isSome || decide (l.length + 1 ≤ cap) then (insert eqv cap l k v, false)
    else (((k, v), false) :: l, true)
  | .answer =>
    if (find eqv l k).isSome || decide (l.length + 1 ≤ cap) then (insert eqv cap l k v, false)
    else (evict eqv (((k, v), false) :: l), true)

end

/-- A cache with several shards: the entries of each, and the configured size. -/
structure Cache (κ ν : Type) where
  shards : Nat → List ((κ × ν) × Bool)
  max : Nat

/-- A new cache of configured size `n`. -/
def Cache.new (n : Nat) : Cache κ ν := ⟨fun _ => [], n⟩

section
variable (eqv : κ → κ → Bool) (shard : κ → Nat) (S : Nat)

/-- The number of entries that can be found. -/
def Cache.count (c : Cache κ ν) : Nat := ((List.range S).map (fun i => (c.shards i).countP Prod.snd)).sum

/-- One call on a cache with `S` shards; each gets an equal share of the configured size. -/
def Cache.step (c : Cache κ ν) : TOp κ ν → Cache κ ν × TResp ν
  | .call (.insert k v) =>
    ({ c with shards := put c.shards (shard k) (insert eqv (c.max / S) (c.shards (shard k)) k v) }, .got .unit)
  | .call (.get k) =>
    ({ c with shards := put c.shards (shard k) (get eqv (c.shards (shard k)) k).1 },
      .got (.val (get eqv (c.shards (shard k)) k).2))
  | .call (.exists k) => (c, .got (.bool (find eqv (c.shards (shard k)) k).isSome))
  | .call (.setSize n) => ({ c with max := n }, .got .unit)
  | .call (.reserve _) => (c, .got .unit)
  | .call .size => (c, .got (.nat (c.count S)))
  | .throwing k v w =>
    ({ c with shards := put c.shards (shard k) (throwing eqv (c.max / S) (c.shards (shard k)) k v w).1 },
      if (throwing eqv (c.max / S) (c.shards (shard k)) k v w).2 then .threw else .got .unit)

/-- How far `size()` is off after the call: every insertion of a new key that throws counts. -/
def excessAfter (c : Cache κ ν) (e : Nat) : TOp κ ν → Nat
  | .call _ => e
  | .throwing k v w =>
    if (throwing eqv (c.max / S) (c.shards (shard k)) k v w).2 && (find eqv (c.shards (shard k)) k).isNone then e + 1 else e

/-- `size()` answers `e` too much. -/
def offBy (e : Nat) : TOp κ ν → TResp ν → TResp ν
  | .call .size, .got (.nat n) => .got (.nat (n + e))
  | _, r => r

/-- The cache after a history. -/
def Cache.after (c : Cache κ ν) (ops : List (TOp κ ν)) : Cache κ ν := ops.foldl (fun c op => (c.step eqv shard S op).1) c

/-- The answers of a history. -/
def Cache.run (c : Cache κ ν) (e : Nat) : List (TOp κ ν) → List (TResp ν)
  | [] => []
  | op :: ops => offBy e op (c.step eqv shard S op).2 :: Cache.run (c.step eqv shard S op).1 (excessAfter eqv shard S c e op) ops

/-- The answers that are expected when all exceptions are of kind `value`: as if the insertions that throw had not been made, but
for `size()`. -/
def calm (c : Lru.Cache κ ν) (e : Nat) : List (TOp κ ν) → List (TResp ν)
  | [] => []
  | .call op :: ops => offBy e (.call op) (.got (c.step eqv shard S op).2) :: calm (c.step eqv shard S op).1 e ops
  | .throwing k _ _ :: ops =>
    .threw :: calm c (if (lookup Prod.fst eqv (c.shards (shard k)) k).isSome then e else e + 1) ops

end

end Gtl.Spec.LruThrow
