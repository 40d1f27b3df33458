import Verif.Btree.MapSlots
/-!
# How map elements are moved between the nodes of a tree (btree.hpp)

The places of all nodes are in one memory. A node is the number of its first place. The counts are arguments; that they are
updated, and how the children are moved, is part of the model of the tree (Verif/Btree/Ops.lean), not of this one.
-/

namespace Gtl.Btree.MapSlots

variable {K V : Type} (T : Types K V)

/-- `uninitialized_move_n` (btree.hpp:1215-1224), from place `src` on to place `dst` on. -/
def uninitMove (m : Mem K V) (src dst : Nat) : Nat → Out (Mem K V)
  | 0 => .ok m
  | n + 1 => (construct T m dst src).then (fun m => uninitMove m (src + 1) (dst + 1) n)

/-- The loops that move `n` elements to higher places, the last one first (btree.hpp:1955-1956, 2053-2060). -/
def moveBack (m : Mem K V) (src dst : Nat) : Nat → Out (Mem K V)
  | 0 => .ok m
  | n + 1 => (move T m (src + n) (dst + n)).then (fun m => moveBack m src dst n)

/-- `btree_node::rebalance_right_to_left` (btree.hpp:1991-2011): the left node `a` has `c` elements, the right one `b`; `p`
is the place of the element between them in the parent. -/
def rebalanceRL (m : Mem K V) (a c b e p t : Nat) : Out (Mem K V) :=
  (construct T m (a + c) p).then fun m =>
  (uninitMove T m b (a + (c + 1)) (t - 1)).then fun m =>
  (move T m (b + (t - 1)) p).then fun m =>
  (moveRange T m (b + t) b (e - t)).then fun m =>
  destroyN m (b + (e - t)) t

/-- `btree_node::rebalance_left_to_right` (btree.hpp:2031-2096); the right node has `e` elements. -/
def rebalanceLR (m : Mem K V) (a c b e p t : Nat) : Out (Mem K V) :=
  (if t ≤ e then
    (uninitMove T m (b + (e - t)) (b + e) t).then fun m =>
    (moveBack T m b (b + t) (e - t)).then fun m =>
    (move T m p (b + (t - 1))).then fun m =>
    moveRange T m (a + (c - (t - 1))) b (t - 1)
  else
    (uninitMove T m b (b + t) e).then fun m =>
    (construct T m (b + (t - 1)) p).then fun m =>
    (uninitMove T m (a + (c - (t - e - 1))) (b + e) (t - e - 1)).then fun m =>
    moveRange T m (a + (c - (t - 1))) b e).then fun m =>
  (move T m (a + (c - t)) p).then fun m =>
  destroyN m (a + (c - t)) t

/-- `btree_node::merge` (btree.hpp:2162-2176), without the removal of the element in the parent (2194). -/
def mergeNodes (m : Mem K V) (a c b e p : Nat) : Out (Mem K V) :=
  (construct T m (a + c) p).then fun m =>
  (uninitMove T m b (a + (c + 1)) e).then fun m =>
  destroyN m b e

/-- `btree_node::split` (btree.hpp:2118-2149): `e` elements go to the empty node `b` (2127-2134), and the last one left goes
to the place `i` of the parent, the node `q` with `k` elements (`emplace_value`, 1948-1969). -/
def splitNode (m : Mem K V) (a c b e q k i : Nat) : Out (Mem K V) :=
  (uninitMove T m (a + (c - e)) b e).then fun m =>
  (destroyN m (a + (c - e)) e).then fun m =>
  (if i < k then
    (construct T m (q + k) (q + (k - 1))).then fun m =>
    (moveBack T m (q + i) (q + i + 1) (k - 1 - i)).then fun m => destroy m (q + i)
  else .ok m).then fun m =>
  (construct T m (q + i) (a + (c - e - 1))).then fun m =>
  destroy m (a + (c - e - 1))

/-- The loop that swaps `n` elements (btree.hpp:2211-2213). -/
def swapValues (m : Mem K V) (a b : Nat) : Nat → Out (Mem K V)
  | 0 => .ok m
  | n + 1 => (swap T m a b).then fun m => swapValues m (a + 1) (b + 1) n

/-- `btree_node::swap` (btree.hpp:2208-2219), when the smaller node `s` with `k` elements and the larger node `l` with `n`
elements are known. -/
def swapSorted (m : Mem K V) (s k l n : Nat) : Out (Mem K V) :=
  (swapValues T m s l k).then fun m =>
  (uninitMove T m (l + k) (s + k) (n - k)).then fun m =>
  destroyN m (l + k) (n - k)

/-- `btree_node::swap` (btree.hpp:2198-2219): the node `a` has `c` elements and the node `b` has `e`. -/
def swapNodes (m : Mem K V) (a c b e : Nat) : Out (Mem K V) :=
  if c > e then swapSorted T m b e a c else swapSorted T m a c b e

end Gtl.Btree.MapSlots
