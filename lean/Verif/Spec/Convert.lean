import Verif.Spec.Owners
/-!
# Specification: pointers to derived classes become pointers to base classes

Objects and owners as in `Verif.Spec.Owners`. A pointer to an object of a derived class can be copied or moved into a pointer
to a base class (or to the same class with `const`). A move leaves the source empty, as it does between pointers of one type.
-/

namespace Gtl.Spec.Convert

open Gtl.Spec.Owners

/-- What a program can do. In conversions `src` has another type than the new pointer. `byValue` tells whether the classes
are such that also an object of the class of `src` can be converted to the other class: not if that class is abstract, or
cannot be copied. It should not matter. -/
inductive Cmd where
  | op (o : Op)
  /-- `intrusive_ptr<T> x(src)` -/
  | copy (src : Loc)
  /-- `intrusive_ptr<T> x(std::move(src))` -/
  | move (src : Loc) (byValue : Bool)
  /-- `dst = std::move(src)` -/
  | assignMove (dst src : Loc) (byValue : Bool)

/-- The pointers after the command, before objects die; `none` if the command is not allowed. -/
def effect (g : Graph) : Cmd → Option Graph
  | .op o => Owners.effect g o
  | .copy src => do
    let p ← g.get src
    some (g.declare p)
  | .move src _ => do
    let p ← g.get src
    some ((g.set src none).declare p)
  | .assignMove dst src _ => do
    let _ ← g.get dst
    let p ← g.get src
    if dst = src then none else some ((g.set src none).set dst p)

/-- One command. -/
def Step (g : Graph) (c : Cmd) (g' : Graph) : Prop := ∃ g1, effect g c = some g1 ∧ Collected g1 g'

inductive Run : Graph → List Cmd → Graph → Prop
  | nil {g} : Run g [] g
  | cons {g g' g'' c cs} : Step g c g' → Run g' cs g'' → Run g (c :: cs) g''

/-- Every command is allowed when it is its turn, and no object gets too many owners. -/
def Ok : Graph → List Cmd → Prop
  | _, [] => True
  | g, c :: cs => Room g ∧ (effect g c).isSome ∧ ∀ g', Step g c g' → Ok g' cs

/-- Conversions of pointers are allowed only where conversions of objects are. -/
def Cmd.Plain : Cmd → Prop
  | .move _ b | .assignMove _ _ b => b = true
  | _ => True

/-- The same command with pointers of one type, a move being a copy if the objects cannot be converted. -/
def Cmd.actual : Cmd → Op
  | .op o => o
  | .copy src => .copy src
  | .move src b => if b then .move src else .copy src
  | .assignMove dst src b => if b then .assignMove dst src else .assignCopy dst src

end Gtl.Spec.Convert
