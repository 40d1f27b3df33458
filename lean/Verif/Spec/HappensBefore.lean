import Mathlib.Logic.Relation
/-!
# Specification: happens-before

The ordering of the C++ memory model ([intro.races]) for programs whose atomic variables are only changed by
read-modify-write operations. Executions are listed in an order that agrees with the order in which each variable is
changed and each mutex is taken; that there is one such order for all variables is the guarantee of
`memory_order_seq_cst`.
-/

namespace Gtl.Spec.HB

inductive Act where
  /-- an atomic read-modify-write of variable `x`; does it acquire, does it release? -/
  | rmw (x : Nat) (acq rel : Bool)
  /-- an atomic load of variable `x` -/
  | load (x : Nat) (acq : Bool)
  /-- a mutex is taken, shared or exclusively -/
  | lock (x : Nat) (excl : Bool)
  /-- a mutex is released -/
  | unlock (x : Nat) (excl : Bool)
  /-- anything that is not atomic -/
  | plain
  /-- something is handed to another thread in a way that synchronises with it (thread creation, a mutex, a queue) -/
  | pass (to : Nat)
  deriving DecidableEq

structure Ev where
  thread : Nat
  act : Act
  deriving DecidableEq

def Act.Releases (x : Nat) : Act → Prop
  | .rmw y _ rel => y = x ∧ rel = true
  | _ => False

def Act.Acquires (x : Nat) : Act → Prop
  | .rmw y acq _ => y = x ∧ acq = true
  | .load y acq => y = x ∧ acq = true
  | _ => False

/-- Releasing a mutex synchronises with taking it later, unless both are shared ([thread.mutex.requirements]). -/
def Act.Unlocks : Act → Act → Prop
  | .unlock x e, .lock y e' => x = y ∧ (e = true ∨ e' = true)
  | _, _ => False

/-- Event number `i` comes directly before event number `j`: both are in one thread; or `i` passes something to the
thread of `j`; or `i` releases a variable or a mutex and `j` acquires it later. As all changes of variables are
read-modify-writes, every later one belongs to the release sequence of `i`, and `j` reads from it. -/
def Edge (tr : List Ev) (i j : Nat) : Prop :=
  i < j ∧ ∃ a b, tr[i]? = some a ∧ tr[j]? = some b ∧
    (a.thread = b.thread ∨ a.act = .pass b.thread ∨ (∃ x, a.act.Releases x ∧ b.act.Acquires x) ∨ a.act.Unlocks b.act)

/-- Event number `i` happens before event number `j`. -/
def Before (tr : List Ev) : Nat → Nat → Prop := Relation.TransGen (Edge tr)

end Gtl.Spec.HB
