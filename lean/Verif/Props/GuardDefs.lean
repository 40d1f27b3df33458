import Verif.Conc.Guards
/-!
# Vocabulary of C24
-/

namespace Gtl.Guards

open Gtl.Conc (Mode)

/-- The locks a guard says it owns: `owns_lock()` / `owns_shared_lock()` and `mutex()`. -/
def owned : Guard → List (Nat × Mode)
  | .one _ none _ _ => []
  | .one k (some m) l s => (if l then [(m, k.mode)] else []) ++ (if s then [(m, .shared)] else [])
  | .pair md m1 m2 => [(m1, md), (m2, md)]

def ownedO : Option Guard → List (Nat × Mode)
  | none => []
  | some g => owned g

/-- How many live guards own mutex `m` in mode `md`. -/
def owners (w : W) (m : Nat) (md : Mode) : Nat := (w.gs.flatMap ownedO).count (m, md)

/-- Guard `i` is alive and of a single-mutex class. -/
def Alive (w : W) (i : Nat) (k : Kind) (m : Option Nat) (l s : Bool) : Prop := w.gs[i]? = some (some (.one k m l s))

/-- What the caller must respect. -/
def Pre (w : W) : Op → Prop
  | .adopt k m => k ≠ .readWrite ∧ 0 < w.env m k.mode
  | .tryTo k _ _ => k ≠ .readWrite
  | .moveCtor i => ∃ k m l s, Alive w i k m l s
  | .moveAssign i j => ∃ k m l s m' l' s', Alive w i k m l s ∧ Alive w j k m' l' s'
  | .swap i j => ∃ k m l s m' l' s', Alive w i k m l s ∧ Alive w j k m' l' s'
  | .lock i => ∃ k m l s, Alive w i k m l s ∧ (l = false → m ≠ none) ∧ (k = .readWrite → s = false)
  | .unlock i => ∃ k m l s, Alive w i k m l s
  | .lockShared i => ∃ m l s, Alive w i .readWrite m l s ∧ (s = false → m ≠ none) ∧ l = false
  | .unlockShared i => ∃ m l s, Alive w i .readWrite m l s
  | .tryLock i _ => ∃ k m l s, Alive w i k m l s ∧ (l = false → m ≠ none) ∧ k ≠ .readWrite
  | .switch i => ∃ k m l s, Alive w i k m l s ∧ (k = .readWrite → s = true)
  | .destroy i => ∃ g, w.gs[i]? = some (some g)
  | .pairAdopt md m1 m2 => 0 < w.env m1 md ∧ 0 < w.env m2 md ∧ (m1 = m2 → 2 ≤ w.env m1 md)
  | .envUnlock m md => 0 < w.env m md
  | _ => True

/-- The constructor with `try_to_lock`. -/
def IsTryTo : Op → Prop
  | .tryTo _ _ _ => True
  | _ => False

/-- The states that histories of operations lead to; `tries` says whether the constructor with `try_to_lock` is used. -/
inductive Reach (tries : Bool) : W → Prop
  | init : Reach tries init
  | step {w w' op} : Reach tries w → Pre w op → (tries = false → ¬ IsTryTo op) → step w op = .ok w' → Reach tries w'

end Gtl.Guards
