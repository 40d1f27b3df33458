import Verif.Lru.Model
import Verif.Spec.LruThrow
/-!
# Model of `lru_cache_impl` (lru_cache.hpp:24-105) when insertions throw
-/

namespace Gtl.Lru

open Gtl.Swiss Gtl.Parallel
open Gtl.Spec.LruThrow (Fault TOp TResp)

variable {κ ν : Type} (L : LCfg κ)

/-- `insert` (lru_cache.hpp:72-95) on the submap of the key when something throws. The second component says whether it did.
If the key is there, only the assignment of the value can throw (78), before the node is moved; it is assumed to leave the value
as it was. Otherwise `lazy_emplace_l` (phmap.hpp:3943-3969) has run `prepare_insert`, and nothing of it is given back:
* `value`: `value_type(key, value)` or the node allocated by `push_front` (83);
* `entry`: `ctor(key, l.begin())` (84) copies the key into the slot, the node stays in the list;
* `victim`: `to_delete` (89) is a copy of the `const` key of the last node. The slot of the new entry has been filled but is
  not marked, so that what is in it is never destroyed; the model leaves the slot raw;
* `answer`: `std::optional<key_type>{ to_delete }` (91) copies the key again, after `pop_back` (90), so that nobody erases the
  key from the map.
The last two happen only if the list is too long. -/
def Sub.insertThrow (s : Sub κ ν) (max id : Nat) (k : κ) (v : ν) (w : Fault) : Res (Sub κ ν × Bool) := do
  match ← s.tbl.findHash L.C k (L.hash k) with
  | some off =>
    if w = .value then do
      let e ← s.tbl.readSlot off
      let _ ← deref s.lst e.2
      .ok (s, true)
    else do
      let s ← s.insert L max id k v
      .ok (s, false)
  | none =>
    if w = .value then do
      let (t, _) ← s.tbl.prepareInsert L.C (L.hash k)
      .ok ({ s with tbl := t }, true)
    else if w = .entry then do
      let (t, _) ← s.tbl.prepareInsert L.C (L.hash k)
      .ok ({ tbl := t, lst := (id, k, v) :: s.lst }, true)
    else if s.lst.length + 1 ≤ max then do
      let s ← s.insert L max id k v
      .ok (s, false)
    else do
      let (t, _) ← s.tbl.prepareInsert L.C (L.hash k)
      if w = .victim then .ok ({ tbl := t, lst := (id, k, v) :: s.lst }, true)
      else .ok ({ tbl := t, lst := ((id, k, v) :: s.lst).dropLast }, true)

namespace Cache

/-- One call. -/
def stepT (c : Cache κ ν) (id : Nat) : TOp κ ν → Res (Cache κ ν × TResp ν)
  | .call op => do
    let (c, r) ← c.step L id op
    .ok (c, .got r)
  | .throwing k v w => c.withSub (L.shard k) (fun s => do
      let (s, b) ← s.insertThrow L c.max id k v w
      .ok (s, if b then .threw else .got .unit))

/-- A history. -/
def runT (c : Cache κ ν) (next : Nat) : List (TOp κ ν) → Res (Cache κ ν × List (TResp ν))
  | [] => .ok (c, [])
  | op :: ops => do
    let (c, r) ← c.stepT L next op
    let (c, rs) ← runT c (next + 1) ops
    .ok (c, r :: rs)

end Cache

end Gtl.Lru
