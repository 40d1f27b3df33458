/-!
# Model of the scoped helpers of utils.hpp

A program declares scoped objects in blocks, runs arbitrary actions which may throw, dismisses objects by name, branches, nests
blocks, catches exceptions. The stack holds the live scoped objects, the last one declared first. The functions handed to the
objects do not throw when run by a destructor: that ends the program in C++.
-/

namespace Gtl.Scoped

/-- The variables of the program. -/
abbrev State (α : Type) := Nat → α

/-- Assign to a variable. -/
def State.set {α : Type} (s : State α) (x : Nat) (a : α) : State α := fun y => if y = x then a else s y

/-- A live object with its name: `scoped_guard` and `scoped_set_unset` hold `unset_` and `do_it_` (utils.hpp:50-53, 84-87),
`scoped_set_value` holds the variable, the old value and `do_it_` (utils.hpp:125-128). -/
inductive Obj (α : Type) where
  | guard (name : Nat) (unset : State α → State α) (doIt : Bool)
  | value (name : Nat) (x : Nat) (old : α) (doIt : Bool)

/-- The name of a live object. -/
def Obj.name {α : Type} : Obj α → Nat
  | .guard n _ _ => n
  | .value n _ _ _ => n

/-- `dismiss` (utils.hpp:44, 78, 118). -/
def Obj.dismiss {α : Type} : Obj α → Obj α
  | .guard n f _ => .guard n f false
  | .value n x old _ => .value n x old false

/-- The destructors (utils.hpp:39-42, 73-76, 113-116). -/
def Obj.destroy {α : Type} (s : State α) : Obj α → State α
  | .guard _ f d => if d then f s else s
  | .value _ x old d => if d then s.set x old else s

/-- The new value given to `scoped_set_value`: a value, or a reference to a variable. -/
inductive Arg (α : Type) where
  | const (a : α)
  | ref (y : Nat)

/-- The value of the argument. -/
def Arg.eval {α : Type} (s : State α) : Arg α → α
  | .const a => a
  | .ref y => s y

/-- Programs. -/
inductive Prog (α : Type) where
  | done
  | act (f : State α → State α × Bool) (k : Prog α)
  | guard (name : Nat) (f : State α → State α) (doIt : Bool) (k : Prog α)
  | setUnset (name : Nat) (set : State α → State α × Bool) (unset : State α → State α) (doIt : Bool) (k : Prog α)
  | setValue (name : Nat) (x : Nat) (v : Arg α) (doIt : Bool) (k : Prog α)
  | dismiss (name : Nat) (k : Prog α)
  | ite (c : State α → Bool) (p q : Prog α)
  | block (catches : Bool) (b k : Prog α)

/-- Dismiss the innermost live object with a name. -/
def dismissNamed {α : Type} (n : Nat) : List (Obj α) → List (Obj α)
  | [] => []
  | o :: os => if o.name = n then o.dismiss :: os else o :: dismissNamed n os

/-- The outcome of running a program: the variables, the live objects, whether an exception is flying. -/
structure Out (α : Type) where
  state : State α
  stack : List (Obj α)
  threw : Bool

/-- Leaving a block: the objects declared in it are destroyed, the last one first. -/
def leave {α : Type} (n : Nat) (o : Out α) : Out α :=
  let k := o.stack.length - n
  { state := (o.stack.take k).foldl (fun s ob => ob.destroy s) o.state, stack := o.stack.drop k, threw := o.threw }

/-- `old_value_ = std::move(v_); v_ = std::forward<V>(val);` (utils.hpp:107-110); `moved a` is what a move leaves of `a`. -/
def setValueCtor {α : Type} (moved : α → α) (s : State α) (x : Nat) (v : Arg α) : State α :=
  let s1 := s.set x (moved (s x))
  s1.set x (v.eval s1)

/-- Running a program. Constructors: `scoped_guard` (utils.hpp:69-71), `scoped_set_unset` (utils.hpp:32-37; if `set` throws there is
no object, hence no destructor), `scoped_set_value` (utils.hpp:104-111). -/
def exec {α : Type} (moved : α → α) : Prog α → List (Obj α) → State α → Out α
  | .done, st, s => { state := s, stack := st, threw := false }
  | .act f k, st, s =>
    let r := f s
    if r.2 then { state := r.1, stack := st, threw := true } else exec moved k st r.1
  | .guard n f d k, st, s => exec moved k (.guard n f d :: st) s
  | .setUnset n set unset d k, st, s =>
    if d then
      let r := set s
      if r.2 then { state := r.1, stack := st, threw := true } else exec moved k (.guard n unset d :: st) r.1
    else exec moved k (.guard n unset d :: st) s
  | .setValue n x v d k, st, s =>
    if d then exec moved k (.value n x (s x) d :: st) (setValueCtor moved s x v)
    else exec moved k (.value n x (s x) d :: st) s
  | .dismiss n k, st, s => exec moved k (dismissNamed n st) s
  | .ite c p q, st, s => if c s then exec moved p st s else exec moved q st s
  | .block catches b k, st, s =>
    let o := leave st.length (exec moved b st s)
    if o.threw && !catches then o else exec moved k o.stack o.state

/-- `change` (utils.hpp:133-141): the new value of the variable and the answer. -/
def change {α : Type} [DecidableEq α] (var val : α) : α × Bool := if var ≠ val then (val, true) else (var, false)

/-- `replace` (utils.hpp:146-152): the variables and the answer. -/
def replace {α : Type} (moved : α → α) (s : State α) (x : Nat) (v : Arg α) : State α × α :=
  let old := s x
  let s1 := s.set x (moved (s x))
  (s1.set x (v.eval s1), old)

end Gtl.Scoped
