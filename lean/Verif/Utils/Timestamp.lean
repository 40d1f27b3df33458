/-!
# Model of `timestamp` (utils.hpp)
-/

namespace Gtl.Timestamp

/-- The shared clock and the timestamps, numbered in the order of creation (utils.hpp:206-207). -/
structure World where
  clock : Nat
  stamps : List Nat

/-- The beginning: `clock_` is 0 (utils.hpp:206-207). -/
def World.init : World := { clock := 0, stamps := [] }

/-- What a program does with timestamps. -/
inductive Op where
  | create
  | createWith (stamp : Nat)
  | copy (j : Nat)
  | touch (i : Nat)
  | touchFrom (i j : Nat)
  | reset (i : Nat)
  | merge (i j : Nat)
  | setWithTs (i : Nat) (old new : Int)
  | isSet (i : Nat)
  | newer (i j : Nat)
  | older (i j : Nat)
  | same (i j : Nat)
  deriving DecidableEq

/-- `++clock_`: a 64-bit unsigned integer. -/
def tick (w : World) : World × Nat :=
  let c := (w.clock + 1) % 2 ^ 64
  ({ w with clock := c }, c)

/-- `stamp_` of timestamp `i`. -/
def World.get (w : World) (i : Nat) : Nat := w.stamps.getD i 0
/-- Set `stamp_` of timestamp `i`. -/
def World.put (w : World) (i s : Nat) : World := { w with stamps := w.stamps.set i s }

/-- One operation and its answer: constructors (utils.hpp:167-170), `touch` (172-173), `reset` (175), `is_set`,
`is_newer_than`, `is_older_than`, `==` (177-181), `|`, `|=` (186-190), `set_with_ts` (196-203). -/
def World.step (w : World) : Op → World × Bool
  | .create => let (w, c) := tick w; ({ w with stamps := w.stamps ++ [c] }, false)
  | .createWith s => ({ w with stamps := w.stamps ++ [s] }, false)
  | .copy j => ({ w with stamps := w.stamps ++ [w.get j] }, false)
  | .touch i => let (w, c) := tick w; (w.put i c, false)
  | .touchFrom i j => (w.put i (w.get j), false)
  | .reset i => (w.put i 0, false)
  | .merge i j => (w.put i (if w.get i > w.get j then w.get i else w.get j), false)
  | .setWithTs i old new => if old ≠ new then let (w, c) := tick w; (w.put i c, true) else (w, false)
  | .isSet i => (w, decide (w.get i ≠ 0))
  | .newer i j => (w, decide (w.get i > w.get j))
  | .older i j => (w, decide (w.get i < w.get j))
  | .same i j => (w, decide (w.get i = w.get j))

/-- A sequence of operations with their answers. -/
def World.run (w : World) : List Op → World × List Bool
  | [] => (w, [])
  | op :: ops =>
    let (w, a) := w.step op
    let (w, as) := w.run ops
    (w, a :: as)

end Gtl.Timestamp
