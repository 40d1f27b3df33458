import Verif.Base.Res
import Verif.Spec.Owners
/-!
# Model of `intrusive_ptr` and `intrusive_ref_counter` (intrusive.hpp)

One thread. Objects derive from `intrusive_ref_counter` and may have intrusive pointers as members. Any access to a deleted
object is undefined behaviour, a second deletion too. Not modelled: conversions between types, destructors of objects that
do more than destroy the members, and the depth of the stack when a chain of objects is deleted.
-/

namespace Gtl.Intrusive

open Gtl.Spec.Owners (Loc Op)

/-- An object: `_refcount` (intrusive.hpp:357) and the `px` (160) of the pointers that are its members. -/
structure Obj where
  rc : Nat
  mem : List (Option Nat)

/-- The store: objects by address, `none` once deleted; the `px` of the pointer variables, `none` once destroyed. -/
structure Heap where
  objs : List (Option Obj)
  vars : List (Option (Option Nat))

/-- No objects and no pointers. -/
def Heap.empty : Heap := { objs := [], vars := [] }

/-- Read the `px` of a pointer. -/
def Heap.read (h : Heap) : Loc → Res (Option Nat)
  | .var x => Res.ofOption h.vars[x]?.join
  | .mem a i =>
    match h.objs[a]? with
    | some (some o) => Res.ofOption o.mem[i]?
    | _ => .ub

/-- Write the `px` of a pointer. -/
def Heap.write (h : Heap) : Loc → Option Nat → Res Heap
  | .var x, p =>
    match h.vars[x]? with
    | some (some _) => .ok { h with vars := h.vars.set x (some p) }
    | _ => .ub
  | .mem a i, p =>
    match h.objs[a]? with
    | some (some o) =>
      if i < o.mem.length then .ok { h with objs := h.objs.set a (some { o with mem := o.mem.set i p }) } else .ub
    | _ => .ub

/-- `unsigned int _refcount` (intrusive.hpp:314, 330): arithmetic modulo 2^32. -/
def wrap (n : Nat) : Nat := n % 2 ^ 32

/-- `if (px) intrusive_ptr_add_ref(px)` (intrusive.hpp:63-64, 318, 375). -/
def Heap.addRef (h : Heap) : Option Nat → Res Heap
  | none => .ok h
  | some a =>
    match h.objs[a]? with
    | some (some o) => .ok { h with objs := h.objs.set a (some { o with rc := wrap (o.rc + 1) }) }
    | _ => .ub

/-- `intrusive_ptr_release` (intrusive.hpp:320, 377-380): decrement, delete at zero. Deleting destroys the members, the last
one first, and `~intrusive_ptr` (91-94) releases what they point to. The first argument bounds the depth of the
recursion. -/
def release : Nat → Heap → Nat → Res Heap
  | 0, _, _ => .hang
  | f + 1, h, a =>
    match h.objs[a]? with
    | some (some o) =>
      let rc := wrap (o.rc + (2 ^ 32 - 1))
      if rc = 0 then
        o.mem.reverse.foldlM (fun h p => match p with
          | none => .ok h
          | some b => release f h b) { h with objs := h.objs.set a none }
      else .ok { h with objs := h.objs.set a (some { o with rc := rc }) }
    | _ => .ub

/-- `~intrusive_ptr` (intrusive.hpp:91-94) of a pointer with value `p`. -/
def Heap.drop (h : Heap) : Option Nat → Res Heap
  | none => .ok h
  | some a => release (h.objs.length + 1) h a

/-- A new variable with value `p`. -/
def Heap.declare (h : Heap) (p : Option Nat) : Heap := { h with vars := h.vars ++ [some p] }

/-- `this_type(...).swap(*this)`: the new pointer is made first (value `p`), then exchanged with `*this`, and destroyed with
the old value. -/
def Heap.replace (h : Heap) (dst : Loc) (p : Option Nat) : Res Heap := do
  let old ← h.read dst
  let h ← h.write dst p
  h.drop old

/-- `intrusive_ptr(T* p, bool add_ref)` (intrusive.hpp:61-65), the counting part. -/
def Heap.adopt (h : Heap) (p : Option Nat) (add : Bool) : Res Heap := if add then h.addRef p else .ok h

/-- One operation of a program; the cases cite their lines in `Op`. -/
def Heap.step (h : Heap) : Op → Res Heap
  /- `new T`: `_refcount(0)` (360-361); constructor (61-65) -/
  | .make n => do
    let a := h.objs.length
    let h : Heap := { h with objs := h.objs ++ [some { rc := 0, mem := List.replicate n none }] }
    let h ← h.addRef (some a)
    .ok (h.declare (some a))
  /- (58-59) -/
  | .null => .ok (h.declare none)
  /- (61-65) -/
  | .raw p add => do
    let h ← h.adopt p add
    .ok (h.declare p)
  /- copy constructors (67-72, 80-84); casts of lvalues (236-249): constructor from `p.get()` -/
  | .copy src => do
    let p ← h.read src
    let h ← h.addRef p
    .ok (h.declare p)
  /- move constructors (74-78, 86-89) -/
  | .move src => do
    let p ← h.read src
    let h ← h.write src none
    .ok (h.declare p)
  /- casts of rvalues (251-259): `intrusive_ptr<T>(p.detach(), false)` -/
  | .castMove src => do
    let p ← h.read src
    let h ← h.write src none
    let h ← h.adopt p false
    .ok (h.declare p)
  /- (246-249) -/
  | .dynCast src ok => do
    let p ← h.read src
    let p2 := if ok then p else none
    let h ← h.addRef p2
    .ok (h.declare p2)
  /- (261-271) -/
  | .dynCastMove src ok => do
    let p ← h.read src
    let p2 := if ok then p else none
    let h ← h.adopt p2 false
    if p2.isSome then do
      let h ← h.write src none
      .ok (h.declare p2)
    else .ok (h.declare p2)
  /- destructor (91-94) -/
  | .destroy x => do
    let p ← h.read (.var x)
    Heap.drop { h with vars := h.vars.set x none } p
  /- (96-100, 102-107) -/
  | .assignCopy dst src =>
    if dst = src then do
      let _ ← h.read dst
      .ok h
    else do
      let p ← h.read src
      let h ← h.addRef p
      h.replace dst p
  /- (109-113, 115-119) -/
  | .assignMove dst src =>
    if dst = src then do
      let _ ← h.read dst
      .ok h
    else do
      let p ← h.read src
      let h ← h.write src none
      h.replace dst p
  /- (121-125) -/
  | .assignRaw dst p => do
    let q ← h.read dst
    if p ≠ q then do
      let h ← h.addRef p
      h.replace dst p
    else .ok h
  /- (127) -/
  | .reset dst => h.replace dst none
  /- (129-131) -/
  | .resetRaw dst p add => do
    let h ← h.adopt p add
    h.replace dst p
  /- (135-139) -/
  | .detach src => do
    let _ ← h.read src
    h.write src none
  /- (153-157) -/
  | .swap a b => do
    let tmp ← h.read a
    let q ← h.read b
    let h ← h.write a q
    h.write b tmp

/-- `use_count()` (intrusive.hpp:370). -/
def Heap.useCount (h : Heap) (a : Nat) : Res Nat :=
  match h.objs[a]? with
  | some (some o) => .ok o.rc
  | _ => .ub

/-- A sequence of operations. -/
def run (h : Heap) : List Op → Res Heap
  | [] => .ok h
  | op :: ops => do
    let h ← h.step op
    run h ops

end Gtl.Intrusive
