/-!
# Specification: a recursive pure function

This file knows nothing about caches. The function is given by its body: for every argument, a program that returns a
value or asks for the value of the function at another argument and goes on with it.
-/

namespace Gtl.Spec.Memo

variable {κ ν : Type}

/-- The body of a pure function at one argument. A function that is not recursive has only `ret`. -/
inductive Prog (κ ν : Type) where
  | ret (v : ν)
  | call (k : κ) (next : ν → Prog κ ν)

/-- Run a body, with `f` for the recursive calls. -/
def Prog.run (f : κ → Option ν) : Prog κ ν → Option ν
  | .ret v => some v
  | .call k next => match f k with
    | some v => (next v).run f
    | none => none

/-- The value at `k`, if it is found with recursion of depth at most `n`. -/
def eval (body : κ → Prog κ ν) : Nat → κ → Option ν
  | 0, _ => none
  | n + 1, k => (body k).run (eval body n)

/-- The function terminates at `k` with value `v`. -/
def Value (body : κ → Prog κ ν) (k : κ) (v : ν) : Prop := ∃ n, eval body n k = some v

/-- Calls on a memoized function. -/
inductive Op (κ : Type) where
  | call (k : κ)
  | contains (k : κ)
  | clear
  | reserve (n : Nat)
  | size
  deriving DecidableEq

/-- What the caller sees. -/
inductive Resp (ν : Type) where
  | val (v : ν)
  | opt (o : Option ν)
  | unit
  | nat (n : Nat)
  deriving DecidableEq

/-- The arguments at which the body was run since the last `clear`, oldest first. The history lists calls, answers, and
the arguments at which the body was run during the call. -/
def sinceClear (h : List (Op κ × Resp ν × List κ)) : List κ :=
  h.foldl (fun d e => match e.1 with
    | .clear => []
    | _ => d ++ e.2.2) []

end Gtl.Spec.Memo
