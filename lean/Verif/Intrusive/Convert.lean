import Verif.Intrusive.Model
import Verif.Spec.Convert
/-!
# Model of conversions between intrusive pointers (intrusive.hpp:67-78, 115-119)

The constructor from `intrusive_ptr<U>&&` takes part in overload resolution only if `std::is_convertible_v<U, T>` (74), a
condition on the classes and not on pointers to them; otherwise the constructor from `intrusive_ptr<U> const&` (67-72), which
has no condition, accepts the rvalue. Move assignment from another type (115-119) constructs a pointer from the rvalue.

Copy assignment from another type (102-107) compares `this` with the address of an object of another type and does not
compile, so there is no such command. Pointers to the base class part of an object are identified with pointers to the
object, as their counters are the same.
-/

namespace Gtl.Intrusive

open Gtl.Spec.Owners (Loc Op)
open Gtl.Spec.Convert (Cmd)

/-- The value of an `intrusive_ptr<T>` constructed from `intrusive_ptr<U> const& rhs` (intrusive.hpp:67-72). -/
def Heap.fromCopy (h : Heap) (rhs : Loc) : Res (Heap × Option Nat) := do
  let px ← h.read rhs
  let h ← h.addRef px
  .ok (h, px)

/-- The value of an `intrusive_ptr<T>` constructed from `intrusive_ptr<U>&& rhs`: by the constructor for rvalues
(intrusive.hpp:74-78) if it is enabled, by the one for lvalues (67-72) if not. -/
def Heap.fromMove (h : Heap) (rhs : Loc) (byValue : Bool) : Res (Heap × Option Nat) :=
  if byValue then do
    let px ← h.read rhs
    let h ← h.write rhs none
    .ok (h, px)
  else h.fromCopy rhs

/-- One command; the cases cite their lines. -/
def Heap.convert (h : Heap) : Cmd → Res Heap
  | .op o => h.step o
  /- intrusive.hpp:67-72 -/
  | .copy src => do
    let (h, p) ← h.fromCopy src
    .ok (h.declare p)
  /- intrusive.hpp:74-78, 67-72 -/
  | .move src b => do
    let (h, p) ← h.fromMove src b
    .ok (h.declare p)
  /- intrusive.hpp:115-119 -/
  | .assignMove dst src b => do
    let (h, p) ← h.fromMove src b
    h.replace dst p

/-- A sequence of commands, each as above (intrusive.hpp:61-157). -/
def conversions (h : Heap) : List Cmd → Res Heap
  | [] => .ok h
  | c :: cs => do
    let h ← h.convert c
    conversions h cs

end Gtl.Intrusive
