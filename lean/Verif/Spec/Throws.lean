import Verif.Spec.Assoc
/-!
# Specification: a container whose element constructors throw

The calls of `Verif.Spec.Assoc`, and insertions during which the constructor of the new element throws. What a user relies on
is that a call that throws leaves the container as it was. `excess` is the number by which `size()` may be wrong; it is
only looked at by `size()`.
-/

namespace Gtl.Spec

variable {α κ : Type}

inductive TOp (α κ : Type) where
  /-- any call during which nothing throws -/
  | call (op : Op α κ)
  /-- an insertion of `a` (`insert`, `emplace`, `try_emplace`, `lazy_emplace`, `operator[]`, `insert_or_assign`) in which
  the constructor of the new element throws, if it is run at all -/
  | throwing (a : α)

/-- The answer of a call, or the exception. -/
inductive TResp (α : Type) where
  | got (r : Resp α)
  /-- the key was there: nothing was constructed, nothing thrown -/
  | present
  | threw
  deriving DecidableEq

section
variable (key : α → κ) (eqv : κ → κ → Bool)

/-- Contents and answer when a call that throws changes nothing. -/
def tstep (l : List α) : TOp α κ → List α × TResp α
  | .call op => ((step key eqv l op).1, .got (step key eqv l op).2)
  | .throwing a => (l, if (lookup key eqv l (key a)).isSome then .present else .threw)

/-- How far `size()` is off after the call: every exception adds one, `clear()` sets it to nought. -/
def excessAfter (l : List α) (e : Nat) : TOp α κ → Nat
  | .call .clear => 0
  | .call _ => e
  | .throwing a => if (lookup key eqv l (key a)).isSome then e else e + 1

/-- `size()` answers `e` too much. -/
def offBy (e : Nat) : TOp α κ → TResp α → TResp α
  | .call .size, .got (.nat n) => .got (.nat (n + e))
  | _, r => r

/-- A history: contents, excess, answers. -/
def trun (l : List α) (e : Nat) : List (TOp α κ) → List α × Nat × List (TResp α)
  | [] => (l, e, [])
  | op :: ops =>
    let r := tstep key eqv l op
    let s := trun r.1 (excessAfter key eqv l e op) ops
    (s.1, s.2.1, offBy e op r.2 :: s.2.2)

/-- Preconditions of the calls. -/
def TOp.Valid : TOp α κ → Prop
  | .call op => op.Valid key
  | .throwing _ => True

end

/-- Calls that may take a single element out of the container. -/
def TOp.Erases : TOp α κ → Prop
  | .call (.erase _) => True
  | .call (.eraseIf _) => True
  | .call (.extract _) => True
  | .call (.toggle _) => True
  | _ => False

/-- At most `n` exceptions between any two calls of `clear()`; `s` have been thrown already. -/
def Few (n : Nat) : Nat → List (TOp α κ) → Prop
  | _, [] => True
  | s, .throwing _ :: ops => s + 1 ≤ n ∧ Few n (s + 1) ops
  | _, .call .clear :: ops => Few n 0 ops
  | s, .call _ :: ops => Few n s ops

end Gtl.Spec
