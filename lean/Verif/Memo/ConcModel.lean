import Verif.Memo.Model
import Verif.Conc.Container
/-!
# Model of `mt_memoize` used from many threads (memoize.hpp:74-140)

One shared object per submap. With a recursive function `operator()` is a critical section that looks the argument up,
then, without a lock, the function, then a critical section that stores the result. With `recursive == false` it is one
critical section, in which the function is run.
-/

namespace Gtl.Memo

open Gtl.Swiss Gtl.Parallel Gtl.Conc
open Gtl.Spec.Memo (Prog Op Resp)

variable {κ ν : Type} (M : MCfg κ)

/-- `subidx(hash(key))` (phmap.hpp:4421). -/
def MCfg.sub (k : κ) : Nat := subidx M.N (M.hash k)

/-- Lock taken by `if_contains` (phmap.hpp:3864-3866; `SharedLock`, 540-549). -/
def MCfg.readMode : Mode := if M.mtx = .shared then .shared else .excl

/-- `_cache.if_contains(key, ...)` (memoize.hpp:125, phmap.hpp:3864-3901) on the submap of the key. -/
def lookSec (k : κ) (t : Tbl (κ × ν)) : Res (Tbl (κ × ν) × Option ν) := do
  let (t, o) ← PTbl.modifyKeyIf M.P t k id
  .ok (t, o.map Prod.snd)

/-- `_cache.emplace(key, res)` (memoize.hpp:128) on the submap of the key. -/
def putSec (k : κ) (v : ν) (t : Tbl (κ × ν)) : Res (Tbl (κ × ν) × Unit) := do
  let (t, _) ← t.step (M.P (ν := ν)).C (.insert (k, v))
  .ok (t, ())

/-- `_cache.lazy_emplace_l(key, ...)` (memoize.hpp:107-117, phmap.hpp:3943-3969) on the submap of the key. The value
and whether the function was run; `v` is the value of the function. -/
def onceSec (k : κ) (v : ν) (t : Tbl (κ × ν)) : Res (Tbl (κ × ν) × ν × Bool) := do
  let (t, e, new) ← PTbl.emplaceL M.P t (k, v) id
  .ok (t, e.2, new)

/-- Clearing one submap (phmap.hpp:3574-3581). -/
def clearSec (t : Tbl (κ × ν)) : Res (Tbl (κ × ν) × Unit) := do
  let (t, _) ← t.step (M.P (ν := ν)).C .clear
  .ok (t, ())

/-- The critical sections, cut into atomic actions in some way. -/
structure Cut (κ ν : Type) where
  look : κ → Code (Tbl (κ × ν)) (Option ν)
  put : κ → ν → Code (Tbl (κ × ν)) Unit
  once : κ → ν → Code (Tbl (κ × ν)) (ν × Bool)
  clear : Nat → Code (Tbl (κ × ν)) Unit

/-- They do what the sections do; what runs under a shared lock only reads. -/
structure Cut.Ok (X : Cut κ ν) : Prop where
  look : ∀ k, Does (M.sub k) true (lookSec M k) (X.look k)
  put : ∀ k v, Does (M.sub k) false (putSec M k v) (X.put k v)
  once : ∀ k v, Does (M.sub k) false (onceSec M k v) (X.once k v)
  clear : ∀ i, Does i false (clearSec M) (X.clear i)

/-! ## Recursive functions -/

variable {ρ : Type} (X : Cut κ ν)

/-- The body of the function, with `rec` for the calls of the memoized function; `K` is what comes afterwards. -/
def bodyCode (rec : κ → (ν → Code (Tbl (κ × ν)) ρ) → Code (Tbl (κ × ν)) ρ) :
    Prog κ ν → (ν → Code (Tbl (κ × ν)) ρ) → Code (Tbl (κ × ν)) ρ
  | .ret v, K => K v
  | .call k next, K => rec k (fun v => bodyCode rec (next v) K)

/-- `operator()` (memoize.hpp:124-129). `n` bounds the depth of the recursion; it is chosen large enough for the bound
not to be reached. -/
def callCode (body : κ → Prog κ ν) : Nat → κ → (ν → Code (Tbl (κ × ν)) ρ) → Code (Tbl (κ × ν)) ρ
  | 0, _, _ => .ub
  | n + 1, k, K =>
    .sec (M.sub k) M.readMode (X.look k) fun r => match r with
      | some v => K v
      | none => bodyCode (callCode body n) (body k) fun v =>
        .sec (M.sub k) .excl (X.put k v) fun _ => K v

/-- `contains` (memoize.hpp:93-98). -/
def containsCode (k : κ) : Code (Tbl (κ × ν)) (Resp ν) :=
  .sec (M.sub k) M.readMode (X.look k) fun r => .ret (.opt r)

/-- `clear()` (memoize.hpp:133, phmap.hpp:3574-3581): one submap after the other. -/
def clearCode : List Nat → Code (Tbl (κ × ν)) (Resp ν)
  | [] => .ret .unit
  | i :: is => .sec i .excl (X.clear i) fun _ => clearCode is

/-- The calls that may be made concurrently. `size()` takes no locks and `reserve` is left out. -/
inductive COp (κ : Type) where
  | call (k : κ)
  | contains (k : κ)
  | clear
  deriving DecidableEq

/-- The code of the calls (memoize.hpp:82-150). -/
def codeOf (body : κ → Prog κ ν) (depth : κ → Nat) : COp κ → Code (Tbl (κ × ν)) (Resp ν)
  | .call k => callCode M X body (depth k) k (fun v => .ret (.val v))
  | .contains k => containsCode M X k
  | .clear => clearCode X (List.range (2 ^ M.N))

/-! ## Functions that are not recursive -/

/-- Answers in this mode; `run` says, to the observer, whether the function was run by this call. -/
inductive ORes (ν : Type) where
  | val (v : ν) (run : Bool)
  | opt (o : Option ν)
  deriving DecidableEq

/-- The calls that may be made concurrently. -/
inductive OOp (κ : Type) where
  | call (k : κ)
  | contains (k : κ)
  deriving DecidableEq

/-- `operator()` with a mutex and `recursive == false` (memoize.hpp:106-118), and `contains`. `f` is the function. -/
def onceCode (f : κ → ν) : OOp κ → Code (Tbl (κ × ν)) (ORes ν)
  | .call k => .sec (M.sub k) .excl (X.once k (f k)) fun r => .ret (.val r.1 r.2)
  | .contains k => .sec (M.sub k) M.readMode (X.look k) fun r => .ret (.opt r)

end Gtl.Memo
