import Verif.Memo.LruModel
import Verif.Swiss.Throw
import Verif.Spec.MemoLruThrow
/-!
# Model of `mt_memoize_lru` (memoize.hpp:174-263) when the function throws
-/

namespace Gtl.Memo

open Gtl.Swiss Gtl.Parallel Gtl.Lru
open Gtl.Spec.MemoLru (TOp TResp Resp)

variable {κ ν : Type} (L : LCfg κ)

/-- `operator()` (memoize.hpp:219-245) on the submap of the key when the function throws: it is run (231) by `lazy_emplace_l`
(phmap.hpp:3943-3969) after `prepare_insert`, before the list is touched (232) and before the slot is filled (233). Nothing is
given back. -/
def subCallThrow (s : Sub κ ν) (k : κ) : Res (Sub κ ν × TResp ν) := do
  match ← s.tbl.findHash L.C k (L.hash k) with
  | some off => do
    let e ← s.tbl.readSlot off
    let n ← deref s.lst e.2
    let l ← splice s.lst e.2
    .ok ({ s with lst := l }, .got (.val n.2 false))
  | none => do
    let (t, _) ← s.tbl.prepareInsert L.C (L.hash k)
    .ok ({ s with tbl := t }, .threw)

/-- One call. -/
def lruStepT (f : κ → ν) (c : Cache κ ν) (id : Nat) : TOp κ → Res (Cache κ ν × TResp ν)
  | .call op => do
    let (c, r) ← lruStep L f c id op
    .ok (c, .got r)
  | .throwing k => c.withSub (L.shard k) (fun s => subCallThrow L s k)

/-- A history. -/
def lruRunT (f : κ → ν) (c : Cache κ ν) (next : Nat) : List (TOp κ) → Res (Cache κ ν × List (TResp ν))
  | [] => .ok (c, [])
  | op :: ops => do
    let (c, r) ← lruStepT L f c next op
    let (c, rs) ← lruRunT f c (next + 1) ops
    .ok (c, r :: rs)

end Gtl.Memo
