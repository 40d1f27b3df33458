import Verif.Conc.Machine
import Verif.Intrusive.Model
import Mathlib.Algebra.BigOperators.Group.Finset.Basic
/-!
# Model of `intrusive_ref_counter` shared by threads

Threads copy, drop and use pointers to shared objects. The machine is the one of `Verif.Conc.Machine`, without locks. A
thread may only use an object through a pointer that it owns, which is the rule of the API (a single `intrusive_ptr` must not
be used by two threads at once); pointers may be handed to other threads.
-/

namespace Gtl.Intrusive.Threads

open Gtl.Conc (Code TS World upd Step)
open Gtl.Spec (Event)
open Gtl.Intrusive (wrap)

/-- A shared object: `_refcount`, whether it exists, and how often it was deleted. -/
structure Cell where
  rc : Nat
  live : Bool
  deletes : Nat
  deriving DecidableEq

/-- What a thread does with the pointers it owns (intrusive.hpp:370-380). -/
inductive Op where
  /-- copy a pointer to object `i` -/
  | copy (i : Nat)
  /-- destroy a pointer to object `i` -/
  | drop (i : Nat)
  /-- access object `i` -/
  | use (i : Nat)
  deriving DecidableEq

/-- The object it concerns. -/
def Op.obj : Op → Nat
  | .copy i => i
  | .drop i => i
  | .use i => i

/-- Any access to a deleted object is undefined. -/
def alive (c : Cell) (k : Code Cell Unit) : Code Cell Unit := if c.live then k else .ub

/-- `delete p` (intrusive.hpp:379). -/
def del (i : Nat) : Code Cell Unit :=
  .act i (fun c => { c with live := false, deletes := c.deletes + 1 }) (fun c => alive c (.ret ()))

/-- With `thread_safe_counter` (intrusive.hpp:329-337, 375-380): `++counter` and `--counter` are atomic. -/
def safe : Op → Code Cell Unit
  | .copy i => .act i (fun c => { c with rc := wrap (c.rc + 1) }) (fun c => alive c (.ret ()))
  | .drop i => .act i (fun c => { c with rc := wrap (c.rc + (2 ^ 32 - 1)) })
      (fun c => alive c (if wrap (c.rc + (2 ^ 32 - 1)) = 0 then del i else .ret ()))
  | .use i => .act i id (fun c => alive c (.ret ()))

/-- With `thread_unsafe_counter` (intrusive.hpp:313-321): a load and a store. -/
def unsafe_ : Op → Code Cell Unit
  | .copy i => .act i id (fun c => alive c (.act i (fun c' => { c' with rc := wrap (c.rc + 1) }) (fun c => alive c (.ret ()))))
  | .drop i => .act i id (fun c => alive c (.act i (fun c' => { c' with rc := wrap (c.rc + (2 ^ 32 - 1)) })
      (fun c' => alive c' (if wrap (c.rc + (2 ^ 32 - 1)) = 0 then del i else .ret ()))))
  | .use i => .act i id (fun c => alive c (.ret ()))

/-- Who owns how many pointers to which object. -/
abbrev Own := Nat → Nat → Nat

/-- Thread `t` has one pointer to object `i` more. -/
def Own.add (w : Own) (t i : Nat) : Own := fun s j => if s = t ∧ j = i then w s j + 1 else w s j
/-- Thread `t` has one pointer to object `i` less. -/
def Own.sub (w : Own) (t i : Nat) : Own := fun s j => if s = t ∧ j = i then w s j - 1 else w s j

/-- All pointers to object `i` owned by the threads `0 .. n-1`. -/
def Own.total (n : Nat) (w : Own) (i : Nat) : Nat := ∑ t ∈ Finset.range n, w t i

/-- The machine, and the pointers of each thread. -/
abbrev St := World Op Cell Unit × Own

/-- A step of the program with `n` threads. A call needs a pointer; dropping consumes it when the call begins, copying gives
a new one when the call ends. There must be fewer than `2^32 - n` pointers to an object that is copied. -/
inductive OStep (code : Op → Code Cell Unit) (n : Nat) : St → St → Prop
  | call {W W' : World Op Cell Unit} {w : Own} {t o} : t < n → 0 < w t o.obj → (∀ i, o = .copy i → w.total n i + n < 2 ^ 32) →
      Step code W (some (.inv t o)) W' →
      OStep code n (W, w) (W', match o with | .drop i => w.sub t i | _ => w)
  | go {W W' : World Op Cell Unit} {w : Own} : Step code W none W' → OStep code n (W, w) (W', w)
  | ret {W W' : World Op Cell Unit} {w : Own} {t o r} : W.th t = .run o (.ret r) → Step code W (some (.ret t r)) W' →
      OStep code n (W, w) (W', match o with | .copy i => w.add t i | _ => w)
  /-- a pointer is handed to another thread -/
  | give {W : World Op Cell Unit} {w : Own} {t t' i} : t < n → t' < n → W.th t = .idle → 0 < w t i →
      OStep code n (W, w) (W, (w.sub t i).add t' i)

/-- The beginning: threads own pointers to some objects, and the counters agree. -/
def start (n : Nat) (w : Own) : St :=
  ({ obj := fun i => { rc := w.total n i, live := true, deletes := 0 }, hold := fun _ _ => none, th := fun _ => .idle }, w)

end Gtl.Intrusive.Threads
