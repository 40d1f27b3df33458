import Verif.Spec.Memo
/-!
# Specification: calls on a memoized function that may throw

The function is that of `Verif.Spec.Memo`. During a call an exception may be thrown by the code of the function, at any point,
for reasons of its own (no memory, a time limit, ...). A caller who catches it may go on using the memoized function.
-/

namespace Gtl.Spec.Memo

variable {κ ν : Type}

inductive TOp (κ : Type) where
  /-- Call at `k`. With `some j` the code of the function throws when it has made `j` steps during this call, if it comes to
  that; a step is a recursive call or a return, in whichever body is running. With `none` it does not throw. -/
  | call (k : κ) (fail : Option Nat)
  | contains (k : κ)
  | clear
  | reserve (n : Nat)
  | size
  deriving DecidableEq

/-- What the caller sees. -/
inductive TResp (ν : Type) where
  | val (v : ν)
  | threw
  | opt (o : Option ν)
  | unit
  | nat (n : Nat)
  deriving DecidableEq

/-- The arguments at which the body was run to its end since the last `clear`, oldest first. -/
def doneSince (h : List (TOp κ × TResp ν × List κ)) : List κ :=
  h.foldl (fun d e => match e.1 with
    | .clear => []
    | _ => d ++ e.2.2) []

/-! ## A function that is not recursive

`D` are the arguments of the values that are kept, newest first, and `e` the number of exceptions since the last `clear`, by
which `size()` is wrong. -/

section
variable (eqv : κ → κ → Bool) (f : κ → ν)

def nstep (D : List κ) (e : Nat) : TOp κ → List κ × Nat × TResp ν
  | .call k fail =>
    if D.any (fun k' => eqv k' k) then (D, e, .val (f k))
    else match fail with
      | none => (k :: D, e, .val (f k))
      | some _ => (D, e + 1, .threw)
  | .contains k => (D, e, .opt (if D.any (fun k' => eqv k' k) then some (f k) else none))
  | .clear => ([], 0, .unit)
  | .reserve _ => (D, e, .unit)
  | .size => (D, e, .nat (D.length + e))

/-- The answers of a history. -/
def nrun (D : List κ) (e : Nat) : List (TOp κ) → List (TResp ν)
  | [] => []
  | op :: ops => (nstep eqv f D e op).2.2 :: nrun (nstep eqv f D e op).1 (nstep eqv f D e op).2.1 ops

end
end Gtl.Spec.Memo
