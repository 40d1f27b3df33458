/-!
# Specification: which objects changed after which (C124)

Objects are numbered in the order of their creation.
-/

namespace Gtl.Spec.Stale

/-- What a program does with objects that have timestamps. -/
inductive Act where
  /-- a new object -/
  | create
  /-- `o.touch()` -/
  | touch (i : Nat)
  /-- `o.set_with_ts(member, new)` where the member has the value `old` -/
  | set (i : Nat) (old new : Int)
  deriving DecidableEq

/-- The objects that were created or changed, one after the other; `n` objects exist already. Setting a member to the value
it has is no change. -/
def changes (n : Nat) : List Act → List Nat
  | [] => []
  | .create :: as => n :: changes (n + 1) as
  | .touch i :: as => i :: changes n as
  | .set i old new :: as => if old = new then changes n as else i :: changes n as

/-- The program only uses objects that exist. -/
def Valid (n : Nat) : List Act → Prop
  | [] => True
  | .create :: as => Valid (n + 1) as
  | .touch i :: as => i < n ∧ Valid n as
  | .set i _ _ :: as => i < n ∧ Valid n as

/-- How many objects there are in the end. -/
def count (n : Nat) : List Act → Nat
  | [] => n
  | .create :: as => count (n + 1) as
  | _ :: as => count n as

/-- Some change of `a` came after every change of `b`. -/
def ChangedAfter (c : List Nat) (a b : Nat) : Prop :=
  ∃ p : Nat, c[p]? = some a ∧ ∀ q : Nat, p ≤ q → c[q]? ≠ some b

/-- Something made of objects: its `get_timestamp()` is that of an object, or `x.get_timestamp() | y.get_timestamp()`. -/
inductive Whole where
  | part (i : Nat)
  | both (x y : Whole)

/-- The objects it is made of. -/
def Whole.parts : Whole → List Nat
  | .part i => [i]
  | .both x y => x.parts ++ y.parts

end Gtl.Spec.Stale
