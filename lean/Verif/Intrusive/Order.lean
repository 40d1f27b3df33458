import Verif.Intrusive.Threads
import Verif.Spec.HappensBefore
/-!
# `intrusive_ref_counter` shared by threads: what happens before what

The program of `Verif.Intrusive.Threads` (with `thread_safe_counter`), with a record of what each thread did. The memory
orders of the operations on the counter are parameters; the code uses the default, `memory_order_seq_cst`, which acquires
and releases.
-/

namespace Gtl.Intrusive.Order

open Gtl.Spec.HB
open Gtl.Intrusive (wrap)
open Gtl.Intrusive.Threads (Own)

/-- Memory orders. -/
structure Orders where
  incAcq : Bool
  incRel : Bool
  decAcq : Bool
  decRel : Bool
  loadAcq : Bool
  deriving DecidableEq

/-- `++counter`, `--counter` and `counter.load()` of `std::atomic` (intrusive.hpp:332-336). -/
def code : Orders := ⟨true, true, true, true, true⟩

/-- What a thread does. -/
inductive Lab where
  /-- copy a pointer to object `c`: `intrusive_ptr_add_ref` (intrusive.hpp:375) -/
  | inc (t c : Nat)
  /-- destroy a pointer to object `c`: the first line of `intrusive_ptr_release` (378) -/
  | dec (t c : Nat)
  /-- `delete p` (379) -/
  | del (t c : Nat)
  /-- access to the object through a pointer -/
  | use (t c : Nat)
  /-- `use_count()` returns `v` (370) -/
  | count (t c v : Nat)
  /-- hand a pointer to object `c` to thread `t'` -/
  | give (t t' c : Nat)
  deriving DecidableEq

/-- How the memory model sees it. -/
def Lab.ev (O : Orders) : Lab → Ev
  | .inc t c => ⟨t, .rmw c O.incAcq O.incRel⟩
  | .dec t c => ⟨t, .rmw c O.decAcq O.decRel⟩
  | .del t _ => ⟨t, .plain⟩
  | .use t _ => ⟨t, .plain⟩
  | .count t c _ => ⟨t, .load c O.loadAcq⟩
  | .give t t' _ => ⟨t, .pass t'⟩

/-- The object whose memory is touched. -/
def Lab.touches : Lab → Option Nat
  | .inc _ c => some c
  | .dec _ c => some c
  | .del _ c => some c
  | .use _ c => some c
  | .count _ c _ => some c
  | .give _ _ _ => none

/-- The state shared by the threads. -/
structure St where
  /-- who owns how many pointers -/
  own : Own
  /-- `_refcount` -/
  rc : Nat → Nat
  /-- does the object exist? -/
  live : Nat → Bool
  /-- the object the thread is about to delete -/
  pend : Nat → Option Nat

/-- Change a function at one point. -/
def set {β : Type} (f : Nat → β) (i : Nat) (b : β) : Nat → β := fun j => if j = i then b else f j

/-- The beginning: the counters agree with the pointers. -/
def start (n : Nat) (w : Own) : St := { own := w, rc := fun i => w.total n i, live := fun _ => true, pend := fun _ => none }

/-- One step. A thread uses an object only through a pointer it owns, and finishes `intrusive_ptr_release` before it does
something else. -/
inductive Step (n : Nat) : St → Lab → St → Prop
  | inc {s : St} {t c : Nat} : t < n → s.pend t = none → 0 < s.own t c → s.own.total n c + 1 < 2 ^ 32 →
      Step n s (.inc t c) { s with rc := set s.rc c (wrap (s.rc c + 1)), own := s.own.add t c }
  | dec {s : St} {t c : Nat} : t < n → s.pend t = none → 0 < s.own t c →
      Step n s (.dec t c) { s with
        rc := set s.rc c (wrap (s.rc c + (2 ^ 32 - 1)))
        own := s.own.sub t c
        pend := if wrap (s.rc c + (2 ^ 32 - 1)) = 0 then set s.pend t (some c) else s.pend }
  | del {s : St} {t c : Nat} : s.pend t = some c →
      Step n s (.del t c) { s with live := set s.live c false, pend := set s.pend t none }
  | use {s : St} {t c : Nat} : t < n → s.pend t = none → 0 < s.own t c → Step n s (.use t c) s
  | count {s : St} {t c : Nat} : t < n → s.pend t = none → 0 < s.own t c → Step n s (.count t c (s.rc c)) s
  | give {s : St} {t t' c : Nat} : t < n → t' < n → s.pend t = none → 0 < s.own t c →
      Step n s (.give t t' c) { s with own := (s.own.sub t c).add t' c }

/-- An execution and its record. -/
inductive Exec (n : Nat) (s : St) : List Lab → St → Prop
  | nil : Exec n s [] s
  | snoc {H : List Lab} {s' s'' : St} {a : Lab} : Exec n s H s' → Step n s' a s'' → Exec n s (H ++ [a]) s''

end Gtl.Intrusive.Order
