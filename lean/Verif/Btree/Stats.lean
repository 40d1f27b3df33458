import Verif.Btree.Model
/-
What B-tree containers can tell about themselves: verify(), and the height, the numbers of nodes and the bytes of the tree.
`none` is a failing assertion or undefined behaviour.
-/
namespace Gtl.Btree
variable {α κ : Type}

/-- The loop of btree::height (btree.hpp:1704-1708): from node `id` to its parent until the root comes round. -/
def heightUp (h : Heap α) (root : Nat) : Nat → Nat → Option Nat
  | 0, _ => none
  | f + 1, id => do
    let n ← h.get id
    if n.parent = root then some 1
    else do
      let r ← heightUp h root f n.parent
      some (r + 1)

/-- btree::height (btree.hpp:1696-1711). -/
def Tree.height (t : Tree α) : Option Nat :=
  if t.size = 0 then some 0 else heightUp t.heap t.root (t.heap.length + 1) t.root

/-- node_stats (btree.hpp:1438-1453). -/
structure NodeStats where
  leaf : Nat
  internal : Nat
deriving DecidableEq, Repr

/-- btree::internal_stats (btree.hpp:1911-1925). Pointers to nodes are not null. -/
def Tree.internalStats (t : Tree α) : Nat → Nat → Option NodeStats
  | 0, _ => none
  | f + 1, id =>
    if id = t.root ∧ t.size = 0 then some ⟨0, 0⟩
    else do
      let n ← t.heap.get id
      if n.leaf then some ⟨1, 0⟩
      else (List.range (n.count + 1)).foldlM (fun res i => do
        let k ← n.kids[i]?
        let s ← t.internalStats f k
        some ⟨res.leaf + s.leaf, res.internal + s.internal⟩) ⟨0, 1⟩

/-- `internal_stats(root())`. -/
def Tree.stats (t : Tree α) : Option NodeStats := t.internalStats (t.heap.length + 1) t.root

/-- btree::leaf_nodes (btree.hpp:1715). -/
def Tree.leafNodes (t : Tree α) : Option Nat := do
  let s ← t.stats
  some s.leaf

/-- btree::internal_nodes (btree.hpp:1716). -/
def Tree.internalNodes (t : Tree α) : Option Nat := do
  let s ← t.stats
  some s.internal

/-- btree::nodes (btree.hpp:1717-1720). -/
def Tree.nodes (t : Tree α) : Option Nat := do
  let s ← t.stats
  some (s.leaf + s.internal)

/-- The sizes of the tree object, of leaves with room for so many values (LeafSize, btree.hpp:909) and of inner nodes
(InternalSize, btree.hpp:912). -/
structure Sizes where
  tree : Nat
  leaf : Nat → Nat
  internal : Nat

/-- btree::bytes_used (btree.hpp:1724-1732). Simplification: the arithmetic does not wrap. -/
def Tree.bytesUsed (c : Cfg α κ) (z : Sizes) (t : Tree α) : Option Nat := do
  let s ← t.stats
  if s.leaf = 1 ∧ s.internal = 0 then do
    let r ← t.heap.get t.root
    some (z.tree + z.leaf (r.cap c))
  else some (z.tree + s.leaf * z.leaf c.K + s.internal * z.internal)

/-- The fraction that btree::fullness (btree.hpp:1750-1754) computes, as numerator and denominator; `none` in the second place
for the empty tree, where the result is 0. -/
def Tree.fullness (c : Cfg α κ) (t : Tree α) : Option (Option (Nat × Nat)) :=
  if t.size = 0 then some none
  else do
    let n ← t.nodes
    some (some (t.size, n * c.K))

/-- The fraction that btree::overhead (btree.hpp:1761-1765) computes, in the same way; `elem` is sizeof(value_type). The
subtraction is unsigned: it must not go below zero. -/
def Tree.overhead (c : Cfg α κ) (z : Sizes) (elem : Nat) (t : Tree α) : Option (Option (Nat × Nat)) :=
  if t.size = 0 then some none
  else do
    let b ← t.bytesUsed c z
    check (t.size * elem ≤ b)
    some (some (b - t.size * elem, t.size))

/-- The loop over the keys of a node in internal_verify (btree.hpp:3095-3097). -/
def orderedVals (c : Cfg α κ) : List α → Bool
  | a :: b :: vs => !c.lt (c.key b) (c.key a) && orderedVals c (b :: vs)
  | _ => true

/-- btree::internal_verify (btree.hpp:3083-3110). -/
def internalVerify (c : Cfg α κ) (h : Heap α) : Nat → Nat → Option κ → Option κ → Option Nat
  | 0, _, _, _ => none
  | f + 1, id, lo, hi => do
    let n ← h.get id
    check (0 < n.count)
    check (n.count ≤ n.cap c)
    let a ← n.vals[0]?
    check (lo.all fun lo => !c.lt (c.key a) lo)
    let b ← n.vals[n.count - 1]?
    check (hi.all fun hi => !c.lt hi (c.key b))
    check (orderedVals c n.vals)
    if n.leaf then some n.count
    else (List.range (n.count + 1)).foldlM (fun count i => do
      let k ← n.kids[i]?
      let kn ← h.get k
      check (kn.parent == id)
      check (kn.position == i)
      let m ← internalVerify c h f k (if i = 0 then lo else (n.vals[i - 1]?).map c.key)
        (if i = n.count then hi else (n.vals[i]?).map c.key)
      some (count + m)) n.count

/-- The node of `++const_iterator(root(), -1)` (btree.hpp:1309-1314, 2252-2272). -/
def Tree.firstNode (t : Tree α) : Option Nat := do
  let n ← t.heap.get t.root
  if n.leaf then
    if 0 < n.count then some t.root
    else do
      let it ← incrementEmpty t.heap t.root
      some it.node
  else do
    let k ← n.kids[0]?
    descendFirst t.heap (t.heap.length + 1) k

/-- The node of `--const_iterator(root(), root()->count())` (btree.hpp:1317-1322, 2275-2295). The root is a root: at position -1
of it the loop of decrement_slow ends and the iterator stays. -/
def Tree.lastNode (t : Tree α) : Option Nat := do
  let n ← t.heap.get t.root
  if n.leaf then do
    let p ← t.heap.get n.parent
    check (1 ≤ n.count || p.leaf)
    some t.root
  else do
    let k ← n.kids[n.count]?
    descendLast t.heap (t.heap.length + 1) k

/-- btree::verify (btree.hpp:2731-2742). -/
def Tree.verify (c : Cfg α κ) (t : Tree α) : Option Unit := do
  let r ← t.heap.get t.root
  let _ ← t.heap.get t.rightmost
  if t.size = 0 then some ()
  else do
    let n ← internalVerify c t.heap (t.heap.length + 1) t.root none none
    check (t.size == n)
  let first ← t.firstNode
  check (r.parent == first)
  let last ← t.lastNode
  check (t.rightmost == last)
  let ln ← t.heap.get r.parent
  check ln.leaf
  let rn ← t.heap.get t.rightmost
  check rn.leaf

end Gtl.Btree
