import Verif.Parallel.Table
import Verif.Spec.Lru
/-!
# Model of `lru_cache_impl` and `mt_memoize_lru` (lru_cache.hpp:24-105, memoize.hpp:174-263)

Both are a `parallel_flat_hash_map` from keys to iterators into a `std::list`, with one list per submap (the auxiliary
container `aux_` of a submap, phmap.hpp:3254). A list node is identified by a number that is never used twice, so
an iterator that does not point into the list it is used with is recognised: dereferencing or splicing it is undefined
behaviour.
-/

namespace Gtl.Lru

open Gtl.Swiss Gtl.Parallel
open Gtl.Spec.Lru (Op Resp)

/-- Template parameters: hash (already mixed), equality, `2^N` submaps, group implementation. `scale n` stands for
`size_t(n * 1.1f)` (lru_cache.hpp:98), whose value does not matter. -/
structure LCfg (κ : Type) where
  hash : κ → Nat
  eqv : κ → κ → Bool
  N : Nat
  G : Group
  scale : Nat → Nat

variable {κ ν : Type}

/-- The submaps: keys to list iterators. -/
def LCfg.C (L : LCfg κ) : Cfg (κ × Nat) κ := { key := Prod.fst, hash := L.hash, eqv := L.eqv, G := L.G }

/-- `subidx(hash(key))` (phmap.hpp:4421). -/
def LCfg.shard (L : LCfg κ) (k : κ) : Nat := subidx L.N (L.hash k)

/-- A list node: its identity, key and value. -/
abbrev Node (κ ν : Type) := Nat × κ × ν

/-- One submap and its list (front first). -/
structure Sub (κ ν : Type) where
  tbl : Tbl (κ × Nat)
  lst : List (Node κ ν)

/-- `*it` for a list iterator. -/
def deref (l : List (Node κ ν)) (it : Nat) : Res (κ × ν) :=
  match l.find? (fun n => n.1 == it) with
  | some n => .ok n.2
  | none => .ub

/-- `it->second = v`. -/
def assign (l : List (Node κ ν)) (it : Nat) (v : ν) : Res (List (Node κ ν)) :=
  match l.find? (fun n => n.1 == it) with
  | some _ => .ok (l.map (fun n => if n.1 == it then (n.1, n.2.1, v) else n))
  | none => .ub

/-- `l.splice(l.begin(), l, it)`: move the node to the front. -/
def splice (l : List (Node κ ν)) (it : Nat) : Res (List (Node κ ν)) :=
  match l.find? (fun n => n.1 == it) with
  | some n => .ok (n :: l.filter (fun n => !(n.1 == it)))
  | none => .ub

/-- The end of the lambdas that create an entry (lru_cache.hpp:85-93, memoize.hpp:234-242): if the list is too long,
take the key of its last node, remove that node and ask the map to erase the key. -/
def evict (full : Nat → Bool) (l : List (Node κ ν)) : Res (List (Node κ ν) × Option κ) :=
  if full l.length then
    match l.getLast? with
    | none => .ub
    | some n => .ok (l.dropLast, some n.2.1)
  else .ok (l, none)

section
variable (L : LCfg κ)

/-- `lazy_emplace_l` with an auxiliary container (phmap.hpp:3943-3969, `find_or_prepare_insert_with_hash` 4397-4410,
`lazy_emplace_at` 2197-2201), with what the lambdas of `insert` (lru_cache.hpp:76-94) and of `operator()`
(memoize.hpp:222-243) do. `found` is the first lambda; the second lambda creates node `id` with `k` and `v`. -/
def Sub.emplace (s : Sub κ ν) (full : Nat → Bool) (id : Nat) (k : κ) (v : ν)
    (found : List (Node κ ν) → Nat → Res (List (Node κ ν))) : Res (Sub κ ν) := do
  let h := L.hash k
  match ← s.tbl.findHash L.C k h with
  | some off => do
    let e ← s.tbl.readSlot off
    let l ← found s.lst e.2
    .ok { s with lst := l }
  | none => do
    let (t, off) ← s.tbl.prepareInsert L.C h
    let l := (id, k, v) :: s.lst
    let t ← t.constructSlot off (k, id)
    let (l, del) ← evict full l
    let t ← t.setCtrl L.G.W off (H2 h)
    match del with
    | none => .ok { tbl := t, lst := l }
    | some d => do
      let (t, _) ← t.erase L.C d
      .ok { tbl := t, lst := l }

/-- `if_contains` with an auxiliary container (phmap.hpp:3857-3901): `f` gets the iterator stored in the map. -/
def Sub.ifContains {β : Type} (s : Sub κ ν) (k : κ) (f : List (Node κ ν) → Nat → Res (List (Node κ ν) × β)) :
    Res (Sub κ ν × Option β) := do
  match ← s.tbl.find L.C k with
  | none => .ok (s, none)
  | some off => do
    let e ← s.tbl.readSlot off
    let (l, b) ← f s.lst e.2
    .ok ({ s with lst := l }, some b)

/-- `insert` (lru_cache.hpp:72-95) on the submap of the key. -/
def Sub.insert (s : Sub κ ν) (max id : Nat) (k : κ) (v : ν) : Res (Sub κ ν) :=
  s.emplace L (fun n => n > max) id k v (fun l it => do
    let l ← assign l it v
    splice l it)

/-- `get` (lru_cache.hpp:63-70). -/
def Sub.get (s : Sub κ ν) (k : κ) : Res (Sub κ ν × Option ν) :=
  s.ifContains L k (fun l it => do
    let e ← deref l it
    let l ← splice l it
    .ok (l, e.2))

/-- `exists` (lru_cache.hpp:59-61). -/
def Sub.exists (s : Sub κ ν) (k : κ) : Res (Sub κ ν × Bool) := do
  let (s, o) ← s.ifContains L k (fun l _ => .ok (l, ()))
  .ok (s, o.isSome)

/-- `mt_memoize_lru::contains` (memoize.hpp:212-217). -/
def Sub.peek (s : Sub κ ν) (k : κ) : Res (Sub κ ν × Option ν) :=
  s.ifContains L k (fun l it => do
    let e ← deref l it
    .ok (l, e.2))

end

/-- `lru_cache_impl` (lru_cache.hpp:30-105): the submaps with their lists, and `_max_size`. -/
structure Cache (κ ν : Type) where
  subs : List (Sub κ ν)
  max : Nat

namespace Cache
variable (L : LCfg κ)

/-- Lock submap `i` and run `f` on it and its list. -/
def withSub {β : Type} (c : Cache κ ν) (i : Nat) (f : Sub κ ν → Res (Sub κ ν × β)) : Res (Cache κ ν × β) := do
  let s ← Res.ofOption c.subs[i]?
  let (s, b) ← f s
  .ok ({ c with subs := c.subs.set i s }, b)

/-- `reserve(n)` (lru_cache.hpp:98 and phmap.hpp:4140-4152). -/
def reserve (c : Cache κ ν) (n : Nat) : Res (Cache κ ν) := do
  let m := L.scale n
  let target := growthToLowerboundCapacity L.G.W m
  let normalized := 2 ^ L.N * normalizeCapacity (m / 2 ^ L.N)
  let buckets := if normalized > target then normalized else target
  let ss ← mapRes (fun s => do
    let t ← s.tbl.rehash L.C (buckets / 2 ^ L.N)
    Res.ok { s with tbl := t }) c.subs
  .ok { c with subs := ss }

/-- `set_cache_size(n)` (lru_cache.hpp:99). -/
def setSize (c : Cache κ ν) (n : Nat) : Cache κ ν := { c with max := n / 2 ^ L.N }

/-- A map with empty submaps and lists. -/
def blank : Cache κ ν := { subs := List.replicate (2 ^ L.N) { tbl := Tbl.empty, lst := [] }, max := 0 }

/-- Constructor (lru_cache.hpp:53-57; memoize.hpp:198-210). The assertion `_max_size > 2` is not checked in release
builds and is not modelled. -/
def new (n : Nat) : Res (Cache κ ν) := do
  let c ← (blank L).reserve L n
  .ok (c.setSize L n)

/-- `size()` (lru_cache.hpp:100, phmap.hpp:3558-3563). -/
def size (c : Cache κ ν) : Nat := (c.subs.map (fun s => s.tbl.size)).sum

/-- One call. `id` is the identity of the list node, should one be created. `clear()` does not compile
(phmap.hpp:3574-3593 writes `inner->aux_` for an `Inner&`) and is not modelled. -/
def step (c : Cache κ ν) (id : Nat) : Op κ ν → Res (Cache κ ν × Resp ν)
  | .insert k v => c.withSub (L.shard k) (fun s => do
      let s ← s.insert L c.max id k v
      .ok (s, .unit))
  | .get k => c.withSub (L.shard k) (fun s => do
      let (s, o) ← s.get L k
      .ok (s, .val o))
  | .exists k => c.withSub (L.shard k) (fun s => do
      let (s, b) ← s.exists L k
      .ok (s, .bool b))
  | .setSize n => .ok (c.setSize L n, .unit)
  | .reserve n => do
    let c ← c.reserve L n
    .ok (c, .unit)
  | .size => .ok (c, .nat c.size)

/-- A history of calls on one cache. Node identities are taken from a counter. -/
def run (c : Cache κ ν) (next : Nat) : List (Op κ ν) → Res (Cache κ ν × List (Resp ν))
  | [] => .ok (c, [])
  | op :: ops => do
    let (c, r) ← c.step L next op
    let (c, rs) ← run c (next + 1) ops
    .ok (c, r :: rs)

/-- Copy assignment (implicit; phmap.hpp:3529-3533): the maps and `_max_size` are copied, the lists `aux_` are not. A
copy-constructed cache (3511-3519) is the same with an object that has empty lists. -/
def copyAssign (c that : Cache κ ν) : Res (Cache κ ν) := do
  let ss ← zipRes (fun s u => do
    let t ← Tbl.copyAssign L.C s.tbl u.tbl
    Res.ok { s with tbl := t }) c.subs that.subs
  .ok { subs := ss, max := that.max }

/-- Move assignment (implicit; phmap.hpp:3535-3541) and move construction (3521-3527): the maps are moved, the lists
stay where they are. -/
def moveAssign (c that : Cache κ ν) : Res (Cache κ ν × Cache κ ν) := do
  let ss ← zipRes (fun s u => do
    let (t, u') ← Tbl.moveAssign s.tbl u.tbl
    Res.ok (({ s with tbl := t } : Sub κ ν), ({ u with tbl := u' } : Sub κ ν))) c.subs that.subs
  .ok ({ subs := ss.map Prod.fst, max := that.max }, { subs := ss.map Prod.snd, max := that.max })

end Cache

end Gtl.Lru
