import Verif.Spec.Stopwatch
/-!
# `stopwatch`, `start_snap` and `basic_stopwatch` (stopwatch.hpp)

Points in time are numbers of ticks of `high_resolution_clock`; that their differences overflow is ignored. The
conversion to `float` or `double` in the unit of the stopwatch is left to the caller: the functions here give ticks.
-/

namespace Gtl.Stopwatch

open Gtl.Spec.Stopwatch

/-- `stopwatch::_start`, `_snap` (stopwatch.hpp:68-69). -/
structure Watch where
  start : Int
  snap : Int
deriving DecidableEq

/-- `start()` (stopwatch.hpp:51) at time `now`. -/
def Watch.begin_ (_ : Watch) (now : Int) : Watch := { start := now, snap := now }

/-- `snap()` (stopwatch.hpp:52). -/
def Watch.mark (w : Watch) (now : Int) : Watch := { w with snap := now }

/-- `stopwatch(do_start)` (stopwatch.hpp:46-49). Points in time are initialised with the epoch of the clock. -/
def Watch.make (doStart : Bool) (now : Int) : Watch :=
  let w : Watch := { start := 0, snap := 0 }
  if doStart then w.begin_ now else w

/-- `get_diff(start, end)` (stopwatch.hpp:62-66), in ticks. -/
def getDiff (start end_ : Int) : Int := end_ - start

/-- `since_start()` (stopwatch.hpp:54). -/
def Watch.sinceStart (w : Watch) (now : Int) : Int := getDiff w.start now

/-- `since_snap()` (stopwatch.hpp:55). -/
def Watch.sinceSnap (w : Watch) (now : Int) : Int := getDiff w.snap now

/-- `start_to_snap()` (stopwatch.hpp:56). -/
def Watch.startToSnap (w : Watch) : Int := getDiff w.start w.snap

/-- An execution of code that uses stopwatches (stopwatch.hpp:42-83): the stopwatches, how often the clock was read, and what happened (for the theorems only). -/
structure World where
  watch : Nat → Watch
  reads : Nat
  log : List Event

variable (clock : Nat → Int)

/-- `sw.start()` (stopwatch.hpp:51) in an execution: reads the clock once. -/
def World.begin_ (w : World) (i : Nat) : World :=
  { watch := fun j => if j = i then (w.watch i).begin_ (clock w.reads) else w.watch j
    reads := w.reads + 1
    log := .started i (clock w.reads) :: w.log }

/-- `sw.snap()` (stopwatch.hpp:52) in an execution. -/
def World.mark (w : World) (i : Nat) : World :=
  { watch := fun j => if j = i then (w.watch i).mark (clock w.reads) else w.watch j
    reads := w.reads + 1
    log := .snapped i (clock w.reads) :: w.log }

/-- `stopwatch sw(b)` (stopwatch.hpp:46-49) in an execution: reads the clock if the stopwatch is started. -/
def World.create (w : World) (i : Nat) (b : Bool) : World :=
  { watch := fun j => if j = i then Watch.make b (clock w.reads) else w.watch j
    reads := if b then w.reads + 1 else w.reads
    log := (if b then .started i (clock w.reads) else .created i) :: w.log }

/-- Run a program. The second part of the answer says whether it ended with an exception. `start_snap` starts the
stopwatch in its constructor (stopwatch.hpp:76-79) and snaps it in its destructor (80), which is run however the block is
left. -/
def run : Prog → World → World × Bool
  | .skip, w => (w, false)
  | .seq p q, w =>
    match run p w with
    | (w, true) => (w, true)
    | (w, false) => run q w
  | .create i b, w => (w.create clock i b, false)
  | .start i, w => (w.begin_ clock i, false)
  | .snap i, w => (w.mark clock i, false)
  | .scope i p, w =>
    let (w, e) := run p (w.begin_ clock i)
    (w.mark clock i, e)
  | .test i c p q, w =>
    let d := (w.watch i).sinceStart (clock w.reads)
    let w := { w with reads := w.reads + 1 }
    if c d then run p w else run q w
  | .throw, w => (w, true)
  | .attempt p q, w =>
    match run p w with
    | (w, true) => run q w
    | (w, false) => (w, false)

/-- `basic_stopwatch` (stopwatch.hpp:19-40): the message and `_start`. -/
structure Basic where
  msg : String
  start : Int

/-- The constructor (stopwatch.hpp:21). -/
def Basic.make (msg : String) (now : Int) : Basic := { msg := msg, start := now }

/-- `start()` (stopwatch.hpp:28). -/
def Basic.begin_ (b : Basic) (now : Int) : Basic := { b with start := now }

/-- `get_time_us()` (stopwatch.hpp:30-33), in ticks. -/
def Basic.time (b : Basic) (now : Int) : Int := now - b.start

/-- The destructor (stopwatch.hpp:23-26): what it prints, the message and the time. -/
def Basic.finish (b : Basic) (now : Int) : Option (String × Int) :=
  if b.msg.isEmpty then none else some (b.msg, b.time now)

end Gtl.Stopwatch
