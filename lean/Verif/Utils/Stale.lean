import Verif.Utils.Timestamp
import Verif.Spec.Stale
/-!
# `provides_timestamp` (utils.hpp)

Classes derived from `provides_timestamp` say in `get_timestamp()` which timestamps they are made of.
-/

namespace Gtl.Timestamp

open Gtl.Spec.Stale

/-- `get_timestamp()` of something made of objects: that of an object (utils.hpp:194) or several combined with `|` of
`timestamp` (utils.hpp:186) or of `provides_timestamp` (228-231). -/
def World.stampOf (w : World) : Whole → Nat
  | .part i => w.get i
  | .both x y => if w.stampOf x > w.stampOf y then w.stampOf x else w.stampOf y

/-- `provides_timestamp::is_newer_than` (utils.hpp:217-220). -/
def World.isNewer (w : World) (x y : Whole) : Bool := decide (w.stampOf x > w.stampOf y)

/-- `provides_timestamp::is_older_than` (utils.hpp:222-225). -/
def World.isOlder (w : World) (x y : Whole) : Bool := decide (w.stampOf x < w.stampOf y)

/-- The operation of the model of `timestamp` that an action is (utils.hpp:167, 172, 196-203). -/
def toOp : Act → Op
  | .create => .create
  | .touch i => .touch i
  | .set i old new => .setWithTs i old new

end Gtl.Timestamp
