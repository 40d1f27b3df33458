import Verif.Utils.Timestamp
/-!
# Specification: timestamps are moments of a history

A timestamp is the moment (position in the history) of the touch it comes from, or never. Comparisons compare moments.
-/

namespace Gtl.Spec.Times

open Gtl.Timestamp (Op)

/-- `never`, or the moment of a touch. -/
abbrev Moment := Option Nat

/-- Strictly later; everything is later than never. -/
def later : Moment → Moment → Bool
  | some a, some b => decide (a > b)
  | some _, none => true
  | none, _ => false

def latest (a b : Moment) : Moment := if later a b then a else b

/-- One operation at moment `now`. -/
def step (now : Nat) (ts : List Moment) : Op → List Moment × Bool
  | .create => (ts ++ [some now], false)
  | .createWith _ => (ts ++ [none], false)
  | .copy j => (ts ++ [ts.getD j none], false)
  | .touch i => (ts.set i (some now), false)
  | .touchFrom i j => (ts.set i (ts.getD j none), false)
  | .reset i => (ts.set i none, false)
  | .merge i j => (ts.set i (latest (ts.getD i none) (ts.getD j none)), false)
  | .setWithTs i old new => if old ≠ new then (ts.set i (some now), true) else (ts, false)
  | .isSet i => (ts, (ts.getD i none).isSome)
  | .newer i j => (ts, later (ts.getD i none) (ts.getD j none))
  | .older i j => (ts, later (ts.getD j none) (ts.getD i none))
  | .same i j => (ts, ts.getD i none == ts.getD j none)

def run (now : Nat) (ts : List Moment) : List Op → List Moment × List Bool
  | [] => (ts, [])
  | op :: ops =>
    let (ts, a) := step now ts op
    let (ts, as) := run (now + 1) ts ops
    (ts, a :: as)

end Gtl.Spec.Times
