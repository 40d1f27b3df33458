/-!
# How map elements are moved from place to place (`map_slot_policy`, gtl_base.hpp)

The elements of a map are `pair<const K, V>`. If that has the same layout as `pair<K, V>`, they are moved as `pair<K, V>`;
otherwise the key is copied, because it is const, and copying may throw. Moving keys and values does not throw here.
-/

namespace Gtl.Btree.MapSlots

variable {K V : Type}

/-- How a call ends: normally, with an exception, or it is undefined. -/
inductive Out (σ : Type) where
  | ok (s : σ)
  | threw (s : σ)
  | ub

/-- Go on if there was no exception. -/
def Out.then {σ : Type} : Out σ → (σ → Out σ) → Out σ
  | .ok s, f => f s
  | .threw s, _ => .threw s
  | .ub, _ => .ub

/-- What the types do: whether `pair<const K, V>` and `pair<K, V>` have the same layout (`kMutableKeys`,
gtl_base.hpp:88-109, 169), what moving leaves in a key and a value, and which copies of keys throw. -/
structure Types (K V : Type) where
  mutableKeys : Bool
  goneK : K → K
  goneV : V → V
  fails : Nat → Bool

/-- The places for elements (gtl_base.hpp:137-150), with the object in each if there is one, and how many keys were
copied. -/
structure Mem (K V : Type) where
  slots : Nat → Option (K × V)
  copies : Nat

/-- Put an object into a place, or take it out. -/
def Mem.set (m : Mem K V) (i : Nat) (o : Option (K × V)) : Mem K V :=
  { m with slots := fun j => if j = i then o else m.slots j }

variable (T : Types K V)

/-- `construct(alloc, slot, args...)` (gtl_base.hpp:177-185) of the element `x`. There must be no object yet. -/
def init (m : Mem K V) (i : Nat) (x : K × V) : Out (Mem K V) :=
  match m.slots i with
  | none => .ok (m.set i (some x))
  | some _ => .ub

/-- `construct(alloc, slot, other)` (gtl_base.hpp:188-196). -/
def construct (m : Mem K V) (dst src : Nat) : Out (Mem K V) :=
  match m.slots dst, m.slots src with
  | none, some (k, v) =>
    if T.mutableKeys then .ok ((m.set src (some (T.goneK k, T.goneV v))).set dst (some (k, v)))
    else if T.fails m.copies then .threw { m with copies := m.copies + 1 }
    else .ok (({ m with copies := m.copies + 1 }.set src (some (k, T.goneV v))).set dst (some (k, v)))
  | _, _ => .ub

/-- `destroy` (gtl_base.hpp:198-205). -/
def destroy (m : Mem K V) (i : Nat) : Out (Mem K V) :=
  match m.slots i with
  | some _ => .ok (m.set i none)
  | none => .ub

/-- `transfer` (gtl_base.hpp:207-217). -/
def transfer (m : Mem K V) (dst src : Nat) : Out (Mem K V) :=
  (construct T m dst src).then (fun m => destroy m src)

/-- `move(alloc, src, dest)` (gtl_base.hpp:233-241): assignment, or destruction and construction. -/
def move (m : Mem K V) (src dst : Nat) : Out (Mem K V) :=
  if T.mutableKeys then
    match m.slots src, m.slots dst with
    | some (k, v), some _ => .ok ((m.set dst (some (k, v))).set src (some (T.goneK k, T.goneV v)))
    | _, _ => .ub
  else (destroy m dst).then (fun m => construct T m dst src)

/-- `move(alloc, first, last, result)` (gtl_base.hpp:243-247) of `n` elements. -/
def moveRange (m : Mem K V) (src dst : Nat) : Nat → Out (Mem K V)
  | 0 => .ok m
  | n + 1 => (move T m src dst).then (fun m => moveRange m (src + 1) (dst + 1) n)

/-- `swap` (gtl_base.hpp:219-231). With keys that are copied, `tmp` is an object besides the places. -/
def swap (m : Mem K V) (a b : Nat) : Out (Mem K V) :=
  if T.mutableKeys then
    match m.slots a, m.slots b with
    | some x, some y => .ok ((m.set a (some y)).set b (some x))
    | _, _ => .ub
  else
    match m.slots a with
    | none => .ub
    | some (k, v) =>
      if T.fails m.copies then .threw { m with copies := m.copies + 1 }
      else
        let m := { m with copies := m.copies + 1 }.set a (some (k, T.goneV v))
        (destroy m a).then (fun m => (construct T m a b).then (fun m => (destroy m b).then (fun m =>
          if T.fails m.copies then .threw { m with copies := m.copies + 1 }
          else init { m with copies := m.copies + 1 } b (k, v))))

/-- The loop of `emplace_value` (btree.hpp:1955-1956), with `n` elements still to be shifted to `i + 1 .. i + n`. -/
def shift (m : Mem K V) (i : Nat) : Nat → Out (Mem K V)
  | 0 => .ok m
  | n + 1 => (move T m (i + n) (i + n + 1)).then (fun m => shift m i n)

/-- `btree_node::emplace_value` (btree.hpp:1948-1969) on a leaf with `count` elements, without the check that there is
room and the update of the count. -/
def emplaceValue (m : Mem K V) (count i : Nat) (x : K × V) : Out (Mem K V) :=
  (if i < count then
    (construct T m count (count - 1)).then (fun m => (shift T m i (count - 1 - i)).then (fun m => destroy m i))
  else .ok m).then (fun m => init m i x)

/-- `value_destroy_n` (btree.hpp:1228-1232) of `n` elements. -/
def destroyN (m : Mem K V) (i : Nat) : Nat → Out (Mem K V)
  | 0 => .ok m
  | n + 1 => (destroy m i).then (fun m => destroyN m (i + 1) n)

/-- `btree_node::remove_values_ignore_children` (btree.hpp:1984-1988) on a node with `count` elements, without the update
of the count. -/
def removeValues (m : Mem K V) (count i n : Nat) : Out (Mem K V) :=
  (moveRange T m (i + n) i (count - (i + n))).then (fun m => destroyN m (count - n) n)

end Gtl.Btree.MapSlots
