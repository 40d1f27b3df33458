import Verif.Btree.MapNodes
import Verif.Spec.MapPool
/-!
# Sequences of calls that move map elements within and between nodes (btree.hpp)

The node `n` has the places `n * cap ..< n * cap + cap`. Which calls a container makes is part of the model of the tree
(Verif/Btree/Ops.lean).
-/

namespace Gtl.Btree.MapSlots

open Gtl.Spec.MapPool

variable {K V : Type} (T : Types K V)

/-- `btree_node::emplace_value` (btree.hpp:1948-1960) in the node that starts at `q`. -/
def emplaceAt (m : Mem K V) (q count i : Nat) (x : K × V) : Out (Mem K V) :=
  (if i < count then
    (construct T m (q + count) (q + (count - 1))).then fun m =>
    (moveBack T m (q + i) (q + i + 1) (count - 1 - i)).then fun m => destroy m (q + i)
  else .ok m).then fun m => init m (q + i) x

/-- `btree_node::remove_values_ignore_children` (btree.hpp:1984-1988) in the node that starts at `q`. -/
def removeAt (m : Mem K V) (q count i n : Nat) : Out (Mem K V) :=
  (moveRange T m (q + (i + n)) (q + i) (count - (i + n))).then fun m => destroyN m (q + (count - n)) n

/-- One call; `count` are the counts of the nodes. A merge removes the element of the parent (btree.hpp:2194). -/
def act (cap : Nat) (m : Mem K V) (count : Nat → Nat) : Act (K × V) → Out (Mem K V)
  | .insert n i x => emplaceAt T m (n * cap) (count n) i x
  | .erase n i k => removeAt T m (n * cap) (count n) i k
  | .toLeft a b q i t => rebalanceRL T m (a * cap) (count a) (b * cap) (count b) (q * cap + i) t
  | .toRight a b q i t => rebalanceLR T m (a * cap) (count a) (b * cap) (count b) (q * cap + i) t
  | .merge a b q i => (mergeNodes T m (a * cap) (count a) (b * cap) (count b) (q * cap + i)).then fun m =>
      removeAt T m (q * cap) (count q) i 1
  | .split a b q i e => splitNode T m (a * cap) (count a) (b * cap) e (q * cap) (count q) i
  | .swap a b => swapNodes T m (a * cap) (count a) (b * cap) (count b)

/-- The counts afterwards (`set_count`, btree.hpp:1960, 1987, 2026-2027, 2113-2114, 2127-2134, 2147, 2189-2190, 2245). -/
def counts (c : Nat → Nat) : Act (K × V) → Nat → Nat
  | .insert n _ _ => upd c n (c n + 1)
  | .erase n _ k => upd c n (c n - k)
  | .toLeft a b _ _ t => upd (upd c a (c a + t)) b (c b - t)
  | .toRight a b _ _ t => upd (upd c a (c a - t)) b (c b + t)
  | .merge a b q _ => upd (upd (upd c a (1 + c a + c b)) b 0) q (c q - 1)
  | .split a b q _ e => upd (upd (upd c b e) a (c a - e - 1)) q (c q + 1)
  | .swap a b => upd (upd c a (c b)) b (c a)
where
  /-- Set one count. -/
  upd (c : Nat → Nat) (n v : Nat) : Nat → Nat := fun k => if k = n then v else c k

/-- A sequence of calls, up to the first exception. -/
def acts (cap : Nat) (m : Mem K V) (c : Nat → Nat) : List (Act (K × V)) → Out (Mem K V × (Nat → Nat))
  | [] => .ok (m, c)
  | o :: os =>
    match act T cap m c o with
    | .ok m => acts cap m (counts c o) os
    | .threw m => .threw (m, c)
    | .ub => .ub

end Gtl.Btree.MapSlots
