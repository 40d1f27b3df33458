import Verif.Conc.Share
import Verif.Spec.Nested
/-!
# Callbacks that call back into a parallel container, many threads (phmap.hpp:3857-3969)

The callback runs while the call holds the lock of its submap; the calls it makes take further locks. What happens inside a
section is the code of `Verif.Parallel.Table`, cut into atomic actions in an arbitrary way.

Simplifications: a callback uses the element it got before it makes calls, not afterwards. A lock in shared mode can be had
whenever nobody holds it exclusively, also when somebody waits for it.
-/

namespace Gtl.Conc.Multi.Nest

open Gtl.Swiss Gtl.Parallel
open Gtl.Spec (Op POp Resp)
open Gtl.Spec.Nest (Prog seen)

variable {α κ : Type}

/-- One way of cutting the sections into atomic actions. -/
structure Cutting (α κ : Type) where
  body : POp α κ → Code (Tbl α) (Resp α)
  look : κ → Code (Tbl α) Bool
  again : κ → (α → Bool) → Code (Tbl α) Nat

/-- The actions do what the code of the sections does (phmap.hpp:3857-3969, see `body`, `eraseLook`, `eraseAgain`). -/
def Cutting.Ok (P : PCfg α κ) (K : Cutting α κ) : Prop :=
  (∀ o, Does [(submap P o, lockMode P o)] (at1 (submap P o) (Conc.body P o)) (K.body o)) ∧
  (∀ k, Does [(subidx P.N (P.C.hash k), .shared)] (at1 (subidx P.N (P.C.hash k)) (eraseLook P k)) (K.look k)) ∧
  ∀ k pr, Does [(subidx P.N (P.C.hash k), .excl)] (at1 (subidx P.N (P.C.hash k)) (eraseAgain P k pr)) (K.again k pr)

section
variable (P : PCfg α κ) (K : Cutting α κ) {ρ : Type}

/-- A call whose callback makes no calls, and what comes afterwards: one section, or two for `erase` with a shared mutex
(phmap.hpp:3914-3934). -/
def callCode (op : POp α κ) (k : Resp α → Code (Tbl α) ρ) : Code (Tbl α) ρ :=
  match P.mtx, eraseArgs op with
  | .shared, some (key, pr, rep) =>
    .lock [(submap P op, .shared)] ((K.look key).bind fun found => .unlock (submap P op) .shared
      (if found then .lock [(submap P op, .excl)] ((K.again key pr).bind fun n => .unlock (submap P op) .excl (k (rep n)))
       else k (rep 0)))
  | _, _ => .lock [(submap P op, lockMode P op)] ((K.body op).bind fun r => .unlock (submap P op) (lockMode P op) (k r))

/-- A program, and what comes afterwards (phmap.hpp:3857-3902, 3943-3969, 4621-4640: the lock is a local variable of the call and
released when the callback has returned). -/
def progCode : Prog α κ → (List (Resp α) → Code (Tbl α) ρ) → Code (Tbl α) ρ
  | .done, k => k []
  | .call op rest, k => callCode P K op fun r => progCode (rest r) fun rs => k (r :: rs)
  | .visit op inner rest, k => .lock [(submap P op, lockMode P op)] ((K.body op).bind fun r => match seen r with
    | some b => progCode (inner b) fun rs => .unlock (submap P op) (lockMode P op) (progCode (rest r) fun qs => k (rs ++ r :: qs))
    | none => .unlock (submap P op) (lockMode P op) (progCode (rest r) fun qs => k (r :: qs)))

/-- The code of a program (phmap.hpp:3857-3969). -/
def code (p : Prog α κ) : Code (Tbl α) (List (Resp α)) := progCode P K p .ret

end

end Gtl.Conc.Multi.Nest
