/-!
# Specification: what a stopwatch measures (C123)

Programs that use stopwatches, what happened in an execution of one, and what a user expects to read.
-/

namespace Gtl.Spec.Stopwatch

/-- The block of a program that uses stopwatches, which are numbered. -/
inductive Prog where
  | skip
  /-- one after the other -/
  | seq (p q : Prog)
  /-- `stopwatch sw(b)` -/
  | create (i : Nat) (b : Bool)
  /-- `sw.start()` -/
  | start (i : Nat)
  /-- `sw.snap()` -/
  | snap (i : Nat)
  /-- `{ start_snap guard(sw); p }` -/
  | scope (i : Nat) (p : Prog)
  /-- `if (c(sw.since_start())) p else q` -/
  | test (i : Nat) (c : Int → Bool) (p q : Prog)
  /-- an exception -/
  | throw
  /-- `try { p } catch (...) { q }` -/
  | attempt (p q : Prog)

/-- What happened, with the time at which it happened. -/
inductive Event where
  /-- constructed without being started -/
  | created (i : Nat)
  | started (i : Nat) (t : Int)
  | snapped (i : Nat) (t : Int)

/-- When stopwatch `i` was last started. The latest event comes first. -/
def lastStart (i : Nat) : List Event → Option Int
  | [] => none
  | .created j :: es => if j = i then none else lastStart i es
  | .started j t :: es => if j = i then some t else lastStart i es
  | .snapped _ _ :: es => lastStart i es

/-- When stopwatch `i` was last started or snapped. -/
def lastMark (i : Nat) : List Event → Option Int
  | [] => none
  | .created j :: es => if j = i then none else lastMark i es
  | .started j t :: es => if j = i then some t else lastMark i es
  | .snapped j t :: es => if j = i then some t else lastMark i es

/-- Somewhere in the program stopwatch `i` is constructed or started. -/
def Prog.Starts (i : Nat) : Prog → Prop
  | .skip => False
  | .seq p q => p.Starts i ∨ q.Starts i
  | .create j _ => j = i
  | .start j => j = i
  | .snap _ => False
  | .scope j p => j = i ∨ p.Starts i
  | .test _ _ p q => p.Starts i ∨ q.Starts i
  | .throw => False
  | .attempt p q => p.Starts i ∨ q.Starts i

/-- A clock that never goes back; `clock n` is what it shows when it is read for the `n`-th time. -/
def Steady (clock : Nat → Int) : Prop := ∀ n m : Nat, n ≤ m → clock n ≤ clock m

end Gtl.Spec.Stopwatch
