import Verif.Intrusive.Model
import Verif.Spec.Copies
/-!
# Model of copies and assignments of counted objects (intrusive.hpp:360-368)

`intrusive_ref_counter` is a base class of the objects. Copy constructor and copy assignment of the objects are the ones the
compiler generates: first the base class, then the members in order. As the base class declares its copy operations, it has
no move operations: moving an object copies the base class and moves the members.
-/

namespace Gtl.Intrusive

open Gtl.Spec.Owners (Loc Op)
open Gtl.Spec.Copies (Cmd)

/-- The number of pointers of the object, that is of its type (a class derived from intrusive.hpp:353); the object must be
alive. -/
def Heap.width (h : Heap) (a : Nat) : Res Nat :=
  match h.objs[a]? with
  | some (some o) => .ok o.mem.length
  | _ => .ub

/-- One member of the new object, copied (intrusive.hpp:67-72). -/
def Heap.copyMember (b : Nat) (s : Heap × List (Option Nat)) (i : Nat) : Res (Heap × List (Option Nat)) := do
  let p ← s.1.read (.mem b i)
  let h ← s.1.addRef p
  .ok (h, s.2 ++ [p])

/-- One member of the new object, moved (intrusive.hpp:74-78). -/
def Heap.moveMember (b : Nat) (s : Heap × List (Option Nat)) (i : Nat) : Res (Heap × List (Option Nat)) := do
  let p ← s.1.read (.mem b i)
  let h ← s.1.write (.mem b i) none
  .ok (h, s.2 ++ [p])

/-- The new object with these members, `_refcount(0)` (intrusive.hpp:363-364), and `intrusive_ptr(T* p)` (61-65). -/
def Heap.enter (h : Heap) (ms : List (Option Nat)) : Res Heap := do
  let a := h.objs.length
  let h : Heap := { h with objs := h.objs ++ [some { rc := 0, mem := ms }] }
  let h ← h.addRef (some a)
  .ok (h.declare (some a))

/-- One command. Assignment of the base class does nothing (intrusive.hpp:366-368); members are assigned by
`intrusive_ptr::operator=` (96-100, 109-113). -/
def Heap.command (h : Heap) : Cmd → Res Heap
  | .op o => h.step o
  | .copyNew b => do
    let n ← h.width b
    let s ← (List.range n).foldlM (Heap.copyMember b) (h, [])
    s.1.enter s.2
  | .moveNew b => do
    let n ← h.width b
    let s ← (List.range n).foldlM (Heap.moveMember b) (h, [])
    s.1.enter s.2
  | .copyTo a b => do
    let n ← h.width a
    (List.range n).foldlM (fun h i => h.step (.assignCopy (.mem a i) (.mem b i))) h
  | .moveTo a b => do
    let n ← h.width a
    (List.range n).foldlM (fun h i => h.step (.assignMove (.mem a i) (.mem b i))) h

/-- A sequence of commands, each as above (intrusive.hpp:61-157, 360-368). -/
def commands (h : Heap) : List Cmd → Res Heap
  | [] => .ok h
  | c :: cs => do
    let h ← h.command c
    commands h cs

end Gtl.Intrusive
