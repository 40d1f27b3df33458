import Mathlib.Logic.Relation
/-!
# Specification: objects and their owners

A graph of objects. Pointers are variables of the program or members of objects. There are no counters here: an owner of
an object is a pointer to it, or a reference the program took over with `detach()`. An object without owner dies, and the
pointers that are its members go with it.
-/

namespace Gtl.Spec.Owners

/-- Objects are numbered as they are created. -/
structure Graph where
  /-- the pointers that are members of the object; `none` once it is dead -/
  objs : List (Option (List (Option Nat)))
  /-- the pointer variables; `none` once destroyed -/
  vars : List (Option (Option Nat))
  /-- the references to each object taken over by the program -/
  det : Nat → Nat

def Graph.empty : Graph := { objs := [], vars := [], det := fun _ => 0 }

/-- Where a pointer can be. -/
inductive Loc where
  | var (x : Nat)
  | mem (a i : Nat)
  deriving DecidableEq

/-- The pointer there, if there is one. -/
def Graph.get (g : Graph) : Loc → Option (Option Nat)
  | .var x => g.vars[x]?.join
  | .mem a i => g.objs[a]?.join.bind (fun fs => fs[i]?)

def Graph.set (g : Graph) : Loc → Option Nat → Graph
  | .var x, p => { g with vars := g.vars.set x (some p) }
  | .mem a i, p => { g with objs := g.objs.modify a (Option.map (fun fs => fs.set i p)) }

def Graph.alive (g : Graph) (a : Nat) : Bool := g.objs[a]?.join.isSome

/-- The number of owners of an object. -/
def Graph.owners (g : Graph) (a : Nat) : Nat :=
  g.vars.count (some (some a)) + (g.objs.map (fun o => o.elim 0 (fun fs => fs.count (some a)))).sum + g.det a

/-- A new variable. -/
def Graph.declare (g : Graph) (p : Option Nat) : Graph := { g with vars := g.vars ++ [some p] }

/-- A reference goes over to the program. -/
def Graph.takeRef (g : Graph) : Option Nat → Graph
  | none => g
  | some a => { g with det := fun b => if b = a then g.det b + 1 else g.det b }

/-- The program gives a reference back. -/
def Graph.giveRef (g : Graph) : Option Nat → Graph
  | none => g
  | some a => { g with det := fun b => if b = a then g.det b - 1 else g.det b }

/-- What a program can do with intrusive pointers. -/
inductive Op where
  /-- `intrusive_ptr<T> x(new T)`, where `T` has `n` pointers as members -/
  | make (n : Nat)
  /-- `intrusive_ptr<T> x` -/
  | null
  /-- `intrusive_ptr<T> x(p, add)` -/
  | raw (p : Option Nat) (add : Bool)
  /-- `intrusive_ptr<T> x(src)`, `x = static_pointer_cast<T>(src)`, `const_pointer_cast` -/
  | copy (src : Loc)
  /-- `intrusive_ptr<T> x(std::move(src))`, -/
  | move (src : Loc)
  /-- `x = static_pointer_cast<T>(std::move(src))`, `const_pointer_cast` -/
  | castMove (src : Loc)
  /-- `x = dynamic_pointer_cast<T>(src)`; `ok` tells whether the object is a `T` -/
  | dynCast (src : Loc) (ok : Bool)
  | dynCastMove (src : Loc) (ok : Bool)
  /-- the end of variable `x` -/
  | destroy (x : Nat)
  | assignCopy (dst src : Loc)
  | assignMove (dst src : Loc)
  | assignRaw (dst : Loc) (p : Option Nat)
  | reset (dst : Loc)
  | resetRaw (dst : Loc) (p : Option Nat) (add : Bool)
  | detach (src : Loc)
  | swap (a b : Loc)

/-- A pointer the program may use: to a living object; to take a reference over, the program must have one. -/
def Graph.mayUse (g : Graph) (p : Option Nat) (add : Bool) : Bool :=
  match p with
  | none => true
  | some a => g.alive a && (add || decide (0 < g.det a))

/-- The pointers after the operation, before objects die. `none`: the operation is not allowed, as a pointer it mentions
does not exist. -/
def effect (g : Graph) : Op → Option Graph
  | .make n => some { g with objs := g.objs ++ [some (List.replicate n none)], vars := g.vars ++ [some (some g.objs.length)] }
  | .null => some (g.declare none)
  | .raw p add => if g.mayUse p add then some (if add then g.declare p else (g.declare p).giveRef p) else none
  | .copy src => do
    let p ← g.get src
    some (g.declare p)
  | .move src | .castMove src => do
    let p ← g.get src
    some ((g.set src none).declare p)
  | .dynCast src ok => do
    let p ← g.get src
    some (g.declare (if ok then p else none))
  | .dynCastMove src ok => do
    let p ← g.get src
    some (if ok then (g.set src none).declare p else g.declare none)
  | .destroy x => do
    let _ ← g.get (.var x)
    some { g with vars := g.vars.set x none }
  | .assignCopy dst src => do
    let _ ← g.get dst
    let p ← g.get src
    some (g.set dst p)
  | .assignMove dst src => do
    let _ ← g.get dst
    let p ← g.get src
    some (if dst = src then g else (g.set src none).set dst p)
  | .assignRaw dst p => do
    let _ ← g.get dst
    if g.mayUse p true then some (g.set dst p) else none
  | .reset dst => do
    let _ ← g.get dst
    some (g.set dst none)
  | .resetRaw dst p add => do
    let _ ← g.get dst
    if g.mayUse p add then some (if add then g.set dst p else (g.set dst p).giveRef p) else none
  | .detach src => do
    let p ← g.get src
    some ((g.set src none).takeRef p)
  | .swap a b => do
    let p ← g.get a
    let q ← g.get b
    some ((g.set a q).set b p)

/-- A living object without owner dies. -/
def Dies (g g' : Graph) : Prop :=
  ∃ a, g.alive a = true ∧ g.owners a = 0 ∧ g' = { g with objs := g.objs.set a none }

/-- Objects die until all have owners. -/
def Collected (g g' : Graph) : Prop := Relation.ReflTransGen Dies g g' ∧ ∀ g'', ¬ Dies g' g''

/-- One operation. -/
def Step (g : Graph) (op : Op) (g' : Graph) : Prop := ∃ g1, effect g op = some g1 ∧ Collected g1 g'

inductive Run : Graph → List Op → Graph → Prop
  | nil {g} : Run g [] g
  | cons {g g' g'' op ops} : Step g op g' → Run g' ops g'' → Run g (op :: ops) g''

/-- The counters have 32 bits. -/
def Room (g : Graph) : Prop := ∀ a, g.owners a + 1 < 2 ^ 32

/-- Every operation is allowed when it is its turn, and no object gets too many owners. -/
def Ok : Graph → List Op → Prop
  | _, [] => True
  | g, op :: ops => Room g ∧ (effect g op).isSome ∧ ∀ g', Step g op g' → Ok g' ops

end Gtl.Spec.Owners
