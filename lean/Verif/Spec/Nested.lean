import Verif.Spec.Reenter
import Verif.Spec.Stepwise
/-!
# Specification: calls made by callbacks while other threads use the container

A program of one thread: calls on one parallel container, whose callbacks may make calls on the same container, to any
depth. Everything may depend on all answers. Its plan lists the atomic steps it consists of: one for each call, in the order
in which the calls look up their keys.
-/

namespace Gtl.Spec.Nest

variable {α κ : Type}

inductive Prog (α κ : Type) where
  | done
  /-- a call whose callback, if any, makes no calls -/
  | call (op : POp α κ) (rest : Resp α → Prog α κ)
  /-- `if_contains`, `modify_if`, `try_emplace_l` or `lazy_emplace_l` whose callback, after it has used the element, makes
  the calls `inner` -/
  | visit (op : POp α κ) (inner : α → Prog α κ) (rest : Resp α → Prog α κ)

/-- The call has a callback for an element that is there. -/
def HasCallback : POp α κ → Prop
  | .ifContains _ => True
  | .modifyIf _ _ => True
  | .emplaceL _ _ => True
  | _ => False

/-- The element the callback got, if it was called. -/
def seen : Resp α → Option α
  | .elem o => o
  | .ins b false => some b
  | _ => none

/-- The atomic steps of a program, and the answers in the order in which the calls return. -/
def steps {ρ : Type} : Prog α κ → (List (Resp α) → Plan (POp α κ) (Resp α) ρ) → Plan (POp α κ) (Resp α) ρ
  | .done, k => k []
  | .call op rest, k => .step op fun r => steps (rest r) fun rs => k (r :: rs)
  | .visit op inner rest, k => .step op fun r => match seen r with
    | some b => steps (inner b) fun rs => steps (rest r) fun qs => k (rs ++ r :: qs)
    | none => steps (rest r) fun qs => k (r :: qs)

/-- The plan of a program. -/
def plan (p : Prog α κ) : Plan (POp α κ) (Resp α) (List (Resp α)) := steps p .ret

/-- What a user expects of a program that runs alone: the calls of a callback take place before the call that got it
returns. -/
def run (key : α → κ) (eqv : κ → κ → Bool) : Prog α κ → List α → List α × List (Resp α)
  | .done, l => (l, [])
  | .call op rest, l =>
    let s := pstep key eqv l op
    let q := run key eqv (rest s.2) s.1
    (q.1, s.2 :: q.2)
  | .visit op inner rest, l =>
    let s := pstep key eqv l op
    match seen s.2 with
    | some b =>
      let i := run key eqv (inner b) s.1
      let q := run key eqv (rest s.2) i.1
      (q.1, i.2 ++ s.2 :: q.2)
    | none =>
      let q := run key eqv (rest s.2) s.1
      (q.1, s.2 :: q.2)

/-- A plan carried out without interruption. -/
def alone (key : α → κ) (eqv : κ → κ → Bool) {ρ : Type} : Plan (POp α κ) (Resp α) ρ → List α → List α × ρ
  | .ret r, l => (l, r)
  | .step op k, l => alone key eqv (k (pstep key eqv l op).2) (pstep key eqv l op).1

/-- All calls meet `Q`, those with a callback that makes calls have a callback. -/
def Prog.All (Q : POp α κ → Prop) : Prog α κ → Prop
  | .done => True
  | .call op rest => Q op ∧ ∀ r, (rest r).All Q
  | .visit op inner rest => (Q op ∧ HasCallback op) ∧ (∀ b, (inner b).All Q) ∧ ∀ r, (rest r).All Q

/-- Every call is about one submap `i` with `ok held i`, where `held` are the submaps of the calls around it. `sub` is the
submap of a key. -/
def Prog.Nests (key : α → κ) (sub : κ → Nat) (ok : List Nat → Nat → Prop) : Prog α κ → List Nat → Prop
  | .done, _ => True
  | .call op rest, held => (∃ i, op.reach key sub = some [i] ∧ ok held i) ∧ ∀ r, (rest r).Nests key sub ok held
  | .visit op inner rest, held =>
    (∃ i, op.reach key sub = some [i] ∧ ok held i ∧ ∀ b, (inner b).Nests key sub ok (i :: held)) ∧
      ∀ r, (rest r).Nests key sub ok held

/-- No call is about the submap of a call around it. -/
def Prog.Apart (key : α → κ) (sub : κ → Nat) (p : Prog α κ) : Prop := p.Nests key sub (fun held i => i ∉ held) []

/-- Every call is about a submap with a greater number than those of the calls around it. -/
def Prog.Upwards (key : α → κ) (sub : κ → Nat) (p : Prog α κ) : Prop := p.Nests key sub (fun held i => ∀ j ∈ held, j < i) []

end Gtl.Spec.Nest
