import Mathlib.Logic.Basic
/-!
# Model of `scoped_set_value`, `change` and `replace` when operations of the type throw

Any operation of the type of the variable may throw. A function that is declared `noexcept` and is left by an exception ends
the program, and so does a destructor.
-/

namespace Gtl.ScopedThrow

/-- What the type promises: the type traits in the `noexcept` specifications (utils.hpp:104-105, 134-135, 147-148). -/
structure Traits where
  copyCtor : Bool
  moveAssign : Bool
  copyAssign : Bool

/-- What is given for the new value: an lvalue of the type of the variable, an rvalue of this type, or something else that can
be assigned to it. -/
inductive Given where
  | lvalue
  | rvalue
  | other
  deriving DecidableEq

/-- Which operations throw in one use. -/
structure Faults where
  /-- the default constructor, for `old_value_` -/
  dflt : Bool
  /-- `old_value_ = std::move(v_)` -/
  save : Bool
  /-- `v_ = std::forward<V>(val)` -/
  assign : Bool
  /-- `v_ = std::move(old_value_)` -/
  restore : Bool
  /-- `T old = std::move(var)` -/
  init : Bool
  /-- `var != val` -/
  compare : Bool

/-- Nothing throws. -/
def Faults.none : Faults := ⟨false, false, false, false, false, false⟩

/-- The operations keep the promises of the type. -/
structure Truthful (T : Traits) (g : Given) (f : Faults) : Prop where
  save : T.moveAssign = true → f.save = false
  restore : T.moveAssign = true → f.restore = false
  move : T.moveAssign = true → g = .rvalue → f.assign = false
  copy : T.copyAssign = true → g = .lvalue → f.assign = false

/-- What operations leave behind: `moved a` is what a move leaves of `a`, `src a` what a move from `a` that throws leaves of it,
`dst a` what an assignment to `a` that throws leaves of it. -/
structure Leaves (α : Type) where
  moved : α → α
  src : α → α
  dst : α → α

/-- How a call ends. -/
inductive End where
  | normal
  | threw
  | terminated
  deriving DecidableEq

/-- An exception leaves a function. -/
def raise (isNoexcept : Bool) : End := if isNoexcept then .terminated else .threw

/-- The constructor of `scoped_set_value` (utils.hpp:103-111): how it ends, the variable, `old_value_`. `old_value_` is
default-constructed first, whether `do_it` is true or not; `blank` is its value. -/
def ctor {α : Type} (T : Traits) (L : Leaves α) (f : Faults) (blank var val : α) (doIt : Bool) : End × α × α :=
  let e := raise (T.copyCtor && T.moveAssign)
  if f.dflt then (e, var, blank)
  else if !doIt then (.normal, var, blank)
  else if f.save then (e, L.src var, blank)
  else if f.assign then (e, L.dst (L.moved var), var)
  else (.normal, val, var)

/-- What happens in the scope: the new value of the variable, whether an exception is thrown, whether `dismiss` is called. -/
structure Body (α : Type) where
  run : α → α
  throws : Bool
  dismisses : Bool

/-- The destructor of `scoped_set_value` (utils.hpp:113-116). -/
def dtor {α : Type} (L : Leaves α) (f : Faults) (var old : α) (doIt : Bool) : Option α :=
  if doIt then (if f.restore then none else some old) else some var

/-- A scope that begins with a `scoped_set_value` (utils.hpp:103-118): whether the body runs, how the scope ends, the
variable. -/
def scope {α : Type} (T : Traits) (L : Leaves α) (f : Faults) (blank var val : α) (doIt : Bool) (b : Body α) : Bool × End × α :=
  match ctor T L f blank var val doIt with
  | (.normal, v, old) =>
    match dtor L f (b.run v) old (doIt && !b.dismisses) with
    | some v' => (true, if b.throws then .threw else .normal, v')
    | none => (true, .terminated, L.dst (b.run v))
  | (e, v, _) => (false, e, v)

/-- `replace` (utils.hpp:145-152): how it ends, the variable, the answer if there is one. -/
def replace {α : Type} (T : Traits) (L : Leaves α) (f : Faults) (var val : α) : End × α × Option α :=
  let e := raise (T.moveAssign && T.copyAssign)
  if f.init then (e, L.src var, none)
  else if f.assign then (e, L.dst (L.moved var), none)
  else (.normal, val, some var)

/-- `change` (utils.hpp:132-141): how it ends, the variable, the answer if there is one. -/
def change {α : Type} [DecidableEq α] (T : Traits) (L : Leaves α) (f : Faults) (var val : α) : End × α × Option Bool :=
  let e := raise (T.moveAssign && T.copyAssign)
  if f.compare then (e, var, none)
  else if var ≠ val then
    if f.assign then (e, L.dst var, none) else (.normal, val, some true)
  else (.normal, var, some false)

end Gtl.ScopedThrow
