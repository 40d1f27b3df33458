import Verif.Spec.Assoc
/-!
# Specification: a cache that forgets the least recently used entry

This file knows nothing about hash tables or linked lists.
-/

namespace Gtl.Spec.Lru

variable {κ ν : Type}

/-- Calls on a cache. `setSize` is `set_cache_size`. -/
inductive Op (κ ν : Type) where
  | insert (k : κ) (v : ν)
  | get (k : κ)
  | exists (k : κ)
  | setSize (n : Nat)
  | reserve (n : Nat)
  | size
  deriving DecidableEq

/-- What the caller sees. -/
inductive Resp (ν : Type) where
  | unit
  | bool (b : Bool)
  | nat (n : Nat)
  | val (o : Option ν)
  deriving DecidableEq

/-! ## Facts about a history -/

section
variable (eqv : κ → κ → Bool)

/-- The value most recently inserted for `k`, if any. -/
def latest (h : List (Op κ ν)) (k : κ) : Option ν :=
  h.foldl (fun o op => match op with
    | .insert k' v => if eqv k' k then some v else o
    | _ => o) none

/-- The configured size at the end of a history, if it was `n` at its start. -/
def sizeAfter (n : Nat) (h : List (Op κ ν)) : Nat :=
  h.foldl (fun m op => match op with
    | .setSize n => n
    | _ => m) n

/-- The key used by a call: inserted, or asked for with `get` and found. -/
def used : Op κ ν × Resp ν → Option κ
  | (.insert k _, _) => some k
  | (.get k, .val (some _)) => some k
  | _ => none

/-- `k` is now the most recently used key. -/
def touch (r : List κ) (k : κ) : List κ := k :: r.filter (fun k' => !eqv k' k)

/-- All distinct keys ever used, most recently used first. `h` lists the calls with their answers. -/
def recency (h : List (Op κ ν × Resp ν)) : List κ :=
  h.foldl (fun r e => match used e with
    | some k => touch eqv r k
    | none => r) []

/-- The part of a history that concerns the keys of one shard. -/
def ofShard (shard : κ → Nat) (i : Nat) (h : List (Op κ ν × Resp ν)) : List (Op κ ν × Resp ν) :=
  h.filter (fun e => match used e with
    | some k => shard k == i
    | none => false)

/-! ## A reference cache: one list of entries, most recently used first -/

/-- Ask for `k`: the entry found goes to the front. -/
def get (l : List (κ × ν)) (k : κ) : List (κ × ν) × Option ν :=
  match lookup Prod.fst eqv l k with
  | some e => (e :: erase Prod.fst eqv l k, some e.2)
  | none => (l, none)

/-- Put an entry in front; if it is new and there are now more than `cap` entries, drop the last one. -/
def insert (cap : Nat) (l : List (κ × ν)) (k : κ) (v : ν) : List (κ × ν) :=
  match lookup Prod.fst eqv l k with
  | some e => (e.1, v) :: erase Prod.fst eqv l k
  | none => if l.length + 1 > cap then ((k, v) :: l).dropLast else (k, v) :: l

end

/-- A cache with several shards: the entries of each, and the configured size. -/
structure Cache (κ ν : Type) where
  shards : Nat → List (κ × ν)
  max : Nat

section
variable (eqv : κ → κ → Bool) (shard : κ → Nat) (S : Nat)

/-- One call on a cache with `S` shards; each gets an equal share of the configured size. -/
def Cache.step (c : Cache κ ν) : Op κ ν → Cache κ ν × Resp ν
  | .insert k v =>
    ({ c with shards := put c.shards (shard k) (insert eqv (c.max / S) (c.shards (shard k)) k v) }, .unit)
  | .get k =>
    let r := get eqv (c.shards (shard k)) k
    ({ c with shards := put c.shards (shard k) r.1 }, .val r.2)
  | .exists k => (c, .bool (lookup Prod.fst eqv (c.shards (shard k)) k).isSome)
  | .setSize n => ({ c with max := n }, .unit)
  | .reserve _ => (c, .unit)
  | .size => (c, .nat ((List.range S).map (fun i => (c.shards i).length)).sum)

/-- A history of calls and its answers. -/
def Cache.run (c : Cache κ ν) : List (Op κ ν) → Cache κ ν × List (Resp ν)
  | [] => (c, [])
  | op :: ops =>
    let r := c.step eqv shard S op
    let s := Cache.run r.1 ops
    (s.1, r.2 :: s.2)

end

/-- A new cache of configured size `n`. -/
def Cache.new (n : Nat) : Cache κ ν := ⟨fun _ => [], n⟩

end Gtl.Spec.Lru
