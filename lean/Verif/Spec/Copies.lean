import Verif.Spec.Owners
/-!
# Specification: copying and moving counted objects

Objects of one type have the same number of pointers as members. A copy of an object has the same pointers; its owners are
its own: whoever owns the original does not own the copy. Assigning to an object changes its pointers and not its owners.
-/

namespace Gtl.Spec.Copies

open Gtl.Spec.Owners

/-- What a program can do: with pointers, and with the objects they point to. -/
inductive Cmd where
  | op (o : Op)
  /-- `intrusive_ptr<T> x(new T(*b))` -/
  | copyNew (b : Nat)
  /-- `intrusive_ptr<T> x(new T(std::move(*b)))` -/
  | moveNew (b : Nat)
  /-- `*a = *b` -/
  | copyTo (a b : Nat)
  /-- `*a = std::move(*b)` -/
  | moveTo (a b : Nat)

/-- The pointers that are members of a living object. -/
def pointers (g : Graph) (a : Nat) : Option (List (Option Nat)) := g.objs[a]?.join

/-- The same number of null pointers. -/
def nulls (fs : List (Option Nat)) : List (Option Nat) := fs.map (fun _ => none)

/-- The pointers after the command, before objects die. `none`: the command is not allowed, as an object or pointer it
mentions does not exist, or the objects have different types. -/
def effect (g : Graph) : Cmd → Option Graph
  | .op o => Owners.effect g o
  | .copyNew b => do
    let fs ← pointers g b
    some { g with objs := g.objs ++ [some fs], vars := g.vars ++ [some (some g.objs.length)] }
  | .moveNew b => do
    let fs ← pointers g b
    some { g with objs := g.objs.set b (some (nulls fs)) ++ [some fs], vars := g.vars ++ [some (some g.objs.length)] }
  | .copyTo a b => do
    let old ← pointers g a
    let fs ← pointers g b
    if old.length = fs.length then some { g with objs := g.objs.set a (some fs) } else none
  | .moveTo a b => do
    let old ← pointers g a
    let fs ← pointers g b
    if old.length = fs.length then
      some (if a = b then g else { g with objs := (g.objs.set b (some (nulls fs))).set a (some fs) })
    else none

/-- One command. -/
def Step (g : Graph) (c : Cmd) (g' : Graph) : Prop := ∃ g1, effect g c = some g1 ∧ Collected g1 g'

inductive Run : Graph → List Cmd → Graph → Prop
  | nil {g} : Run g [] g
  | cons {g g' g'' c cs} : Step g c g' → Run g' cs g'' → Run g (c :: cs) g''

/-- How many pointers the command may make. -/
def fresh (g : Graph) : Cmd → Nat
  | .op _ => 1
  | .copyNew b | .moveNew b | .copyTo _ b | .moveTo _ b => ((pointers g b).getD []).length + 1

/-- The counters have 32 bits. -/
def Room (g : Graph) (c : Cmd) : Prop := ∀ x, g.owners x + fresh g c < 2 ^ 32

/-- Objects with several pointers are assigned pointer by pointer, so both objects must survive the assignment. -/
def Survive (g : Graph) (c : Cmd) : Prop :=
  match c with
  | .copyTo a b | .moveTo a b =>
    ((pointers g b).getD []).length ≤ 1 ∨ ∃ g', Step g c g' ∧ g'.alive a = true ∧ g'.alive b = true
  | _ => True

/-- Every command is allowed when it is its turn, and no object gets too many owners. -/
def Ok : Graph → List Cmd → Prop
  | _, [] => True
  | g, c :: cs => Room g c ∧ (effect g c).isSome ∧ Survive g c ∧ ∀ g', Step g c g' → Ok g' cs

end Gtl.Spec.Copies
