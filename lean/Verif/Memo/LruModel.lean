import Verif.Lru.Model
import Verif.Spec.MemoLru
import Verif.Spec.Memo
/-!
# Model of `mt_memoize_lru` (memoize.hpp:174-263)

The map and its lists are those of `Verif.Lru.Model`.
-/

namespace Gtl.Memo

open Gtl.Swiss Gtl.Parallel Gtl.Lru
open Gtl.Spec.MemoLru (Op Resp)
open Gtl.Spec.Memo (Prog)

variable {κ ν : Type} (L : LCfg κ)

/-- `operator()` (memoize.hpp:219-245) on the submap of the key, for a function that does not call the memoized function;
`v` is its value. Returns the value and whether the function was run. (`Sub.emplace` looks the key up again, which has
no effect.) -/
def subCall (s : Sub κ ν) (max id : Nat) (k : κ) (v : ν) : Res (Sub κ ν × ν × Bool) := do
  match ← s.tbl.findHash L.C k (L.hash k) with
  | some off => do
    let e ← s.tbl.readSlot off
    let n ← deref s.lst e.2
    let l ← splice s.lst e.2
    .ok ({ s with lst := l }, n.2, false)
  | none => do
    let s ← s.emplace L (fun n => n >= max) id k v (fun l _ => .ok l)
    .ok (s, v, true)

/-- One call: `operator()`, `contains` (212-217), `set_cache_size`, `reserve`, `size` (247-250). -/
def lruStep (f : κ → ν) (c : Cache κ ν) (id : Nat) : Op κ → Res (Cache κ ν × Resp ν)
  | .call k => c.withSub (L.shard k) (fun s => do
      let (s, v, b) ← subCall L s c.max id k (f k)
      .ok (s, .val v b))
  | .contains k => c.withSub (L.shard k) (fun s => do
      let (s, o) ← s.peek L k
      .ok (s, .opt o))
  | .setSize n => .ok (c.setSize L n, .unit)
  | .reserve n => do
    let c ← c.reserve L n
    .ok (c, .unit)
  | .size => .ok (c, .nat c.size)

/-- A history. -/
def lruRun (f : κ → ν) (c : Cache κ ν) (next : Nat) : List (Op κ) → Res (Cache κ ν × List (Resp ν))
  | [] => .ok (c, [])
  | op :: ops => do
    let (c, r) ← lruStep L f c next op
    let (c, rs) ← lruRun f c (next + 1) ops
    .ok (c, r :: rs)

/-! ## A function that calls the memoized function -/

/-- Run a body with `rec` for its calls of the memoized function. `next` counts list nodes. -/
def lruExec (rec : Cache κ ν → Nat → κ → Res (Cache κ ν × Nat × ν)) :
    Cache κ ν → Nat → Prog κ ν → Res (Cache κ ν × Nat × ν)
  | c, next, .ret v => .ok (c, next, v)
  | c, next, .call k cont => do
    let (c, next, v) ← rec c next k
    lruExec rec c next (cont v)

/-- `operator()` with `NullMutex` (memoize.hpp:219-245, 263; phmap.hpp:3943-3969, 2197-2201): the function runs inside
`lazy_emplace_l`, after a slot was chosen and before it is filled. If the slots have been reallocated meanwhile, or the
slot has been filled, constructing the entry is undefined. -/
def lruCallRec (body : κ → Prog κ ν) : Nat → Cache κ ν → Nat → κ → Res (Cache κ ν × Nat × ν)
  | 0, _, _, _ => .hang
  | n + 1, c, next, k => do
    let s ← Res.ofOption c.subs[L.shard k]?
    match ← s.tbl.findHash L.C k (L.hash k) with
    | some off => do
      let e ← s.tbl.readSlot off
      let v ← deref s.lst e.2
      let l ← splice s.lst e.2
      .ok ({ c with subs := c.subs.set (L.shard k) { s with lst := l } }, next + 1, v.2)
    | none => do
      let (t, off) ← s.tbl.prepareInsert L.C (L.hash k)
      let c := { c with subs := c.subs.set (L.shard k) { s with tbl := t } }
      let (c, next, v) ← lruExec (lruCallRec body n) c next (body k)
      let s ← Res.ofOption c.subs[L.shard k]?
      Res.guardUb (s.tbl.capacity == t.capacity)
      let l := (next, k, v) :: s.lst
      let t ← s.tbl.constructSlot off (k, next)
      let (l, del) ← evict (fun m => m >= c.max) l
      let t ← t.setCtrl L.G.W off (H2 (L.hash k))
      match del with
      | none => .ok ({ c with subs := c.subs.set (L.shard k) { tbl := t, lst := l } }, next + 1, v)
      | some d => do
        let (t, _) ← t.erase L.C d
        .ok ({ c with subs := c.subs.set (L.shard k) { tbl := t, lst := l } }, next + 1, v)

end Gtl.Memo
