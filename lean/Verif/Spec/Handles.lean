import Verif.Spec.Assoc
/-!
# Specification: node handles

A program has any number of containers and any number of node handles, both named by numbers. A handle holds at most one
element. `hstep` says what each call does to the containers and handles, which elements it destroys, and what it answers.
-/

namespace Gtl.Spec

variable {α κ : Type}

inductive HOp (α κ : Type) where
  /-- any call on the containers without handles -/
  | call (op : WOp α κ)
  /-- `h = c.extract(k)` -/
  | extract (h c : Nat) (k : κ)
  /-- `g = c.insert(std::move(h)).node` -/
  | insert (g c h : Nat)
  /-- `c.insert(std::move(h))`, the result is dropped -/
  | insertDrop (c h : Nat)
  /-- `c.insert(hint, std::move(h))` -/
  | insertHint (c h : Nat)
  /-- `g = std::move(h)` -/
  | move (g h : Nat)
  /-- `std::swap(g, h)` -/
  | swap (g h : Nat)
  /-- `h = node_type()`, also the end of the life of a handle -/
  | reset (h : Nat)
  /-- `if (h) h.value() = ...`; key and mapped value may change -/
  | modify (h : Nat) (f : α → α)
  /-- `h.empty()`, `h.value()` -/
  | value (h : Nat)

/-- The containers and the handles. -/
structure HState (α : Type) where
  c : Nat → List α
  h : Nat → Option α

section
variable (key : α → κ) (eqv : κ → κ → Bool)

/-- What inserting the contents of a handle does: the container, the element at the position returned, whether it was
inserted, and what stays outside. -/
def insertHeld (l : List α) : Option α → List α × Option α × Bool × Option α
  | none => (l, none, false, none)
  | some a => match lookup key eqv l (key a) with
    | some b => (l, some b, false, some a)
    | none => (a :: l, some a, true, none)

/-- New state, elements destroyed, answer. -/
def hstep [BEq α] (s : HState α) : HOp α κ → HState α × List α × Resp α
  | .call op => ({ s with c := (wstep key eqv s.c op).1 }, [], (wstep key eqv s.c op).2)
  | .extract h i k =>
    ({ c := put s.c i (erase key eqv (s.c i) k), h := put s.h h (lookup key eqv (s.c i) k) }, (s.h h).toList,
      .elem (lookup key eqv (s.c i) k))
  | .insert g i h =>
    let (l, pos, ins, left) := insertHeld key eqv (s.c i) (s.h h)
    ({ c := put s.c i l, h := put (put s.h h none) g left }, (if g = h then [] else (s.h g).toList), .node pos ins left)
  | .insertDrop i h =>
    let (l, pos, ins, left) := insertHeld key eqv (s.c i) (s.h h)
    ({ c := put s.c i l, h := put s.h h none }, left.toList, .node pos ins none)
  | .insertHint i h =>
    let (l, pos, _, left) := insertHeld key eqv (s.c i) (s.h h)
    ({ c := put s.c i l, h := put s.h h left }, [], .elem pos)
  | .move g h =>
    if g = h then ({ s with h := put s.h h none }, (s.h h).toList, .unit)
    else ({ s with h := put (put s.h h none) g (s.h h) }, (s.h g).toList, .unit)
  | .swap g h => ({ s with h := put (put s.h g (s.h h)) h (s.h g) }, [], .unit)
  | .reset h => ({ s with h := put s.h h none }, (s.h h).toList, .unit)
  | .modify h f => ({ s with h := put s.h h ((s.h h).map f) }, [], .unit)
  | .value h => (s, [], .elem (s.h h))

/-- A history: the final state, all elements destroyed through handles, the answers. -/
def hrun [BEq α] (s : HState α) : List (HOp α κ) → HState α × List α × List (Resp α)
  | [] => (s, [], [])
  | op :: ops =>
    let (s, d, r) := hstep key eqv s op
    let (s, ds, rs) := hrun s ops
    (s, d ++ ds, r :: rs)

def HOp.Valid : HOp α κ → Prop
  | .call op => op.Valid key
  | _ => True

/-- The calls that only move elements between containers and handles. -/
def HOp.Moves : HOp α κ → Prop
  | .call _ => False
  | .modify .. => False
  | _ => True

/-- All names in the call are below `n`. -/
def HOp.Below (n : Nat) : HOp α κ → Prop
  | .call _ => True
  | .extract h i _ => h < n ∧ i < n
  | .insert g i h => g < n ∧ i < n ∧ h < n
  | .insertDrop i h => i < n ∧ h < n
  | .insertHint i h => i < n ∧ h < n
  | .move g h => g < n ∧ h < n
  | .swap g h => g < n ∧ h < n
  | .reset h => h < n
  | .modify h _ => h < n
  | .value h => h < n

/-- Everything that the containers and handles below `n` hold. -/
def owned (n : Nat) (c : Nat → List α) (h : Nat → Option α) : List α :=
  (List.range n).flatMap c ++ (List.range n).flatMap (fun i => (h i).toList)

end
end Gtl.Spec
