/-
The B-tree behind gtl::btree_set, btree_map, btree_multiset and btree_multimap
(include/gtl/btree.hpp), at the level of the nodes and of the pointers between
them: parent pointers, positions in the parent, arrays of children, the pointer
to the rightmost leaf and the leftmost leaf kept as parent of the root.

Everything that the C++ code leaves undefined (following a dangling pointer,
reading a slot that holds no value, overfilling a node, a failing `assert`) is
the outcome `none`. Loops along parent or child pointers take as fuel the number
of nodes ever allocated, and are `none` as well when it runs out.

Simplifications. The slots of a node are the list of the values they hold, so
`count()` is the length of that list; moving values one by one between slots is
one operation on lists. The
addresses of nodes are numbers that are not reused. Every tree has its own nodes.
Constructors, comparisons and allocations do not throw.
-/
namespace Gtl.Btree

/-- The parameters of a tree: `K` is kNodeValues (btree.hpp:893), `multi` is
is_multi_container (btree.hpp:618), `linear` is use_linear_search
(btree.hpp:834), `cmpTo` is is_key_compare_to (btree.hpp:609), `key` is
params_type::key (btree.hpp:691-693, 758-759), `lt` is compare_keys
(btree.hpp:1676). -/
structure Cfg (α κ : Type) where
  K : Nat
  multi : Bool
  linear : Bool
  cmpTo : Bool
  key : α → κ
  lt : κ → κ → Bool

/-- kMinNodeValues (btree.hpp:1435). -/
def Cfg.minK {α κ : Type} (c : Cfg α κ) : Nat := c.K / 2

/-- The three way comparison of two keys, do_three_way_comparison
(btree.hpp:506-510); key-compare-to functors answer it directly. -/
def Cfg.cmp3 {α κ : Type} (c : Cfg α κ) (x y : κ) : Ordering :=
  if c.lt x y then .lt else if c.lt y x then .gt else .eq

/-- btree_node (btree.hpp:808-1241): the fields of the layout
`parent; position, start, count, max_count; values; children`. `start` is always
0 and is left out; `count` is the length of `vals`. `maxCount = 0` marks an
internal node (kInternalNodeMaxCount, btree.hpp:898). The addresses of nodes
are natural numbers. -/
structure Node (α : Type) where
  parent : Nat
  position : Nat
  maxCount : Nat
  vals : List α
  kids : List Nat
deriving DecidableEq, Repr

/-- The nodes: `none` marks nodes that have been deallocated. -/
abbrev Heap (α : Type) := List (Option (Node α))

variable {α κ : Type}

/-- btree_node::leaf (btree.hpp:951). -/
def Node.leaf (n : Node α) : Bool := n.maxCount != 0

/-- btree_node::count (btree.hpp:963). -/
def Node.count (n : Node α) : Nat := n.vals.length

/-- btree_node::max_count (btree.hpp:964-970). -/
def Node.cap (c : Cfg α κ) (n : Node α) : Nat := if n.maxCount = 0 then c.K else n.maxCount

namespace Heap

/-- Follow the pointer to a node. -/
def get (h : Heap α) (i : Nat) : Option (Node α) := (h[i]?).join

/-- Write to a node. -/
def set (h : Heap α) (i : Nat) (n : Node α) : Heap α := List.set h i (some n)

/-- btree::allocate and init_leaf or init_internal (btree.hpp:1776-1795,
1164-1183): the address of the new node, and the nodes with it. -/
def alloc (h : Heap α) (n : Node α) : Heap α := h ++ [some n]

/-- btree::deallocate (btree.hpp:1805-1807). -/
def free (h : Heap α) (i : Nat) : Heap α := List.set h i none

/-- Change a node. -/
def upd (h : Heap α) (i : Nat) (f : Node α → Node α) : Option (Heap α) :=
  (h.get i).bind fun n => some (h.set i (f n))

end Heap

/-- Fail (an assertion, or an access outside of a node) unless `b`. -/
def check (b : Bool) : Option Unit := if b then some () else none

/-- btree_iterator (btree.hpp:1244-1392). Positions are natural numbers: the
position -1 that `--begin()` leaves is the outcome `none`. -/
structure It where
  node : Nat
  pos : Nat
deriving DecidableEq, Repr

/-- The data members of btree (btree.hpp:1931-1941) and the nodes. The leftmost
leaf is the parent of the root. -/
structure Tree (α : Type) where
  heap : Heap α
  root : Nat
  rightmost : Nat
  size : Nat
deriving DecidableEq, Repr

/-- EmptyNodeType (btree.hpp:1402-1420): its own parent, a leaf without values. -/
def emptyNode : Node α := ⟨0, 0, 1, [], []⟩

/-- btree::btree (btree.hpp:2351-2355): node 0 is EmptyNode(). -/
def Tree.empty : Tree α := ⟨[some emptyNode], 0, 0, 0⟩

/-! ### Search in a node -/

/-- SearchResult (btree.hpp:784-805); `eq` is `match == kEq`, and means nothing
for plain comparisons. -/
structure SR where
  value : Nat
  eq : Bool
deriving DecidableEq, Repr

/-- linear_search_impl for plain comparisons (btree.hpp:1050-1063); `p v` is
`comp(key, k)`. -/
def linearPlain (p : α → Bool) : List α → Nat
  | [] => 0
  | v :: vs => if p v then linearPlain p vs + 1 else 0

/-- linear_search_impl for compare-to (btree.hpp:1069-1086). -/
def linearTo (p : α → Ordering) : List α → SR
  | [] => ⟨0, false⟩
  | v :: vs =>
    match p v with
    | .eq => ⟨0, true⟩
    | .gt => ⟨0, false⟩
    | .lt => let r := linearTo p vs; ⟨r.value + 1, r.eq⟩

/-- binary_search_impl for plain comparisons (btree.hpp:1092-1108). -/
def binaryPlain (p : α → Bool) (vs : List α) : Nat → Nat → Nat → Option Nat
  | 0, s, e => if s = e then some s else none
  | f + 1, s, e =>
    if s = e then some s
    else do
      let mid := (s + e) / 2
      let v ← vs[mid]?
      if p v then binaryPlain p vs f (mid + 1) e else binaryPlain p vs f s mid

/-- binary_search_impl for compare-to in a multi-container (btree.hpp:1119-1139). -/
def binaryToMulti (p : α → Ordering) (vs : List α) : Nat → Nat → Nat → Bool → Option SR
  | 0, s, e, m => if s = e then some ⟨s, m⟩ else none
  | f + 1, s, e, m =>
    if s = e then some ⟨s, m⟩
    else do
      let mid := (s + e) / 2
      let v ← vs[mid]?
      match p v with
      | .lt => binaryToMulti p vs f (mid + 1) e m
      | .eq => binaryToMulti p vs f s mid true
      | .gt => binaryToMulti p vs f s mid m

/-- binary_search_impl for compare-to without duplicates (btree.hpp:1140-1153). -/
def binaryToUnique (p : α → Ordering) (vs : List α) : Nat → Nat → Nat → Option SR
  | 0, s, e => if s = e then some ⟨s, false⟩ else none
  | f + 1, s, e =>
    if s = e then some ⟨s, false⟩
    else do
      let mid := (s + e) / 2
      let v ← vs[mid]?
      match p v with
      | .lt => binaryToUnique p vs f (mid + 1) e
      | .gt => binaryToUnique p vs f s mid
      | .eq => some ⟨mid, true⟩

/-- btree_node::lower_bound (btree.hpp:1018-1021). -/
def lowerNode (c : Cfg α κ) (n : Node α) (k : κ) : Option SR :=
  if c.cmpTo then
    if c.linear then some (linearTo (fun v => c.cmp3 (c.key v) k) n.vals)
    else if c.multi then binaryToMulti (fun v => c.cmp3 (c.key v) k) n.vals n.count 0 n.count false
    else binaryToUnique (fun v => c.cmp3 (c.key v) k) n.vals n.count 0 n.count
  else
    if c.linear then some ⟨linearPlain (fun v => c.lt (c.key v) k) n.vals, false⟩
    else (binaryPlain (fun v => c.lt (c.key v) k) n.vals n.count 0 n.count).map (⟨·, false⟩)

/-- btree_node::upper_bound (btree.hpp:1024-1028) with upper_bound_adapter
(btree.hpp:768-780). -/
def upperNode (c : Cfg α κ) (n : Node α) (k : κ) : Option Nat :=
  if c.linear then some (linearPlain (fun v => !(c.lt k (c.key v))) n.vals)
  else binaryPlain (fun v => !(c.lt k (c.key v))) n.vals n.count 0 n.count

/-! ### Changes to nodes -/

/-- The loops `for (...) init_child(j, ...)` (btree.hpp:1009-1012): children `cs`
get parent `p` and positions from `j` on. -/
def initChildren (h : Heap α) (p : Nat) : Nat → List Nat → Option (Heap α)
  | _, [] => some h
  | j, c :: cs => do
    let h ← h.upd c fun n => { n with parent := p, position := j }
    initChildren h p (j + 1) cs

/-- The loops `for (...) set_child(j, ...)` (btree.hpp:1001-1005): children `cs`
get positions from `j` on. -/
def setPositions (h : Heap α) : Nat → List Nat → Option (Heap α)
  | _, [] => some h
  | j, c :: cs => do
    let h ← h.upd c fun n => { n with position := j }
    setPositions h (j + 1) cs

/-- The argument of an insertion: a value from outside, or a reference to the
slot of a node, which is read when the new value is constructed. -/
inductive Arg (α : Type) where
  | val (v : α)
  | ref (n : Nat) (j : Nat)
deriving DecidableEq, Repr

/-- What constructing from the argument reads, while node `id` has had its values
from `i` on moved one slot to the right. -/
def Arg.read (h : Heap α) (id : Nat) (i : Nat) : Arg α → Option α
  | .val v => some v
  | .ref n j => do
    let nd ← h.get n
    if n = id then
      if j < i then nd.vals[j]? else if j = i then none else nd.vals[j - 1]?
    else nd.vals[j]?

/-- btree_node::emplace_value on a leaf (btree.hpp:1948-1968). -/
def emplaceLeaf (c : Cfg α κ) (h : Heap α) (id : Nat) (i : Nat) (a : Arg α) : Option (Heap α) := do
  let n ← h.get id
  check (n.leaf && i ≤ n.count && n.count < n.cap c)
  let v ← a.read h id i
  some (h.set id { n with vals := n.vals.insertIdx i v })

/-- btree_node::emplace_value on an internal node (btree.hpp:1948-1968) followed
by `init_child(i + 1, dest)` (btree.hpp:2149), which fills the gap that it leaves
among the children; split is the only caller. -/
def emplaceInternal (c : Cfg α κ) (h : Heap α) (id : Nat) (i : Nat) (v : α) (dest : Nat) : Option (Heap α) := do
  let n ← h.get id
  check (!n.leaf && i ≤ n.count && n.count < n.cap c)
  let h := h.set id { n with vals := n.vals.insertIdx i v, kids := n.kids.insertIdx (i + 1) dest }
  let h ← setPositions h (i + 2) (n.kids.drop (i + 1))
  initChildren h id (i + 1) [dest]

/-- btree_node::remove_values_ignore_children (btree.hpp:1984-1988). -/
def removeValues (h : Heap α) (id : Nat) (i k : Nat) : Option (Heap α) := do
  let n ← h.get id
  check (i + k ≤ n.count)
  some (h.set id { n with vals := n.vals.take i ++ n.vals.drop (i + k) })

/-- btree_node::remove_value (btree.hpp:1971-1981). On internal nodes child
`i + 1`, which must be empty, leaves the array. -/
def removeValue (h : Heap α) (id : Nat) (i : Nat) : Option (Heap α) := do
  let n ← h.get id
  check (i < n.count)
  if n.leaf then removeValues h id i 1
  else do
    let e ← n.kids[i + 1]?
    let en ← h.get e
    check (en.count == 0)
    let h := h.set id { n with kids := n.kids.eraseIdx (i + 1) }
    let h ← setPositions h (i + 1) (n.kids.drop (i + 2))
    removeValues h id i 1

/-- btree_node::rebalance_right_to_left (btree.hpp:1991-2028) on node `l`. -/
def rebalanceRightToLeft (c : Cfg α κ) (h : Heap α) (toMove : Nat) (l r : Nat) : Option (Heap α) := do
  let ln ← h.get l
  let rn ← h.get r
  check (ln.parent == rn.parent && ln.position + 1 == rn.position && ln.count ≤ rn.count
    && 1 ≤ toMove && toMove ≤ rn.count && ln.count + toMove ≤ ln.cap c && ln.leaf == rn.leaf)
  let p := ln.parent
  let pn ← h.get p
  let d ← pn.vals[ln.position]?
  let nd ← rn.vals[toMove - 1]?
  let h := h.set p { pn with vals := pn.vals.set ln.position nd }
  let h := h.set l { ln with vals := ln.vals ++ d :: rn.vals.take (toMove - 1),
                             kids := ln.kids ++ rn.kids.take toMove }
  let h := h.set r { rn with vals := rn.vals.drop toMove, kids := rn.kids.drop toMove }
  if ln.leaf then some h
  else do
    let h ← initChildren h l (ln.count + 1) (rn.kids.take toMove)
    initChildren h r 0 (rn.kids.drop toMove)

/-- btree_node::rebalance_left_to_right (btree.hpp:2031-2115) on node `l`. -/
def rebalanceLeftToRight (c : Cfg α κ) (h : Heap α) (toMove : Nat) (l r : Nat) : Option (Heap α) := do
  let ln ← h.get l
  let rn ← h.get r
  check (ln.parent == rn.parent && ln.position + 1 == rn.position && rn.count ≤ ln.count
    && 1 ≤ toMove && toMove ≤ ln.count && rn.count + toMove ≤ rn.cap c && ln.leaf == rn.leaf)
  let p := ln.parent
  let pn ← h.get p
  let d ← pn.vals[ln.position]?
  let nd ← ln.vals[ln.count - toMove]?
  let h := h.set p { pn with vals := pn.vals.set ln.position nd }
  let h := h.set l { ln with vals := ln.vals.take (ln.count - toMove),
                             kids := ln.kids.take (ln.count - toMove + 1) }
  let h := h.set r { rn with vals := ln.vals.drop (ln.count - (toMove - 1)) ++ d :: rn.vals,
                             kids := ln.kids.drop (ln.count - toMove + 1) ++ rn.kids }
  if ln.leaf then some h
  else do
    let h ← initChildren h r toMove rn.kids
    initChildren h r 0 (ln.kids.drop (ln.count - toMove + 1))

/-- btree_node::split (btree.hpp:2118-2159) on node `id`, with the new node
`dest` to the right. -/
def split (c : Cfg α κ) (h : Heap α) (id : Nat) (insertPosition : Nat) (dest : Nat) : Option (Heap α) := do
  let n ← h.get id
  let dn ← h.get dest
  check (dn.count == 0 && n.cap c == c.K)
  let dc := if insertPosition = 0 then n.count - 1
    else if insertPosition = c.K then 0 else n.count / 2
  let lc := n.count - dc
  check (1 ≤ lc)
  let v ← n.vals[lc - 1]?
  let h := h.set dest { dn with vals := n.vals.drop lc, kids := n.kids.drop lc }
  let h := h.set id { n with vals := n.vals.take (lc - 1), kids := n.kids.take lc }
  let h ← emplaceInternal c h n.parent n.position v dest
  if n.leaf then some h
  else initChildren h dest 0 (n.kids.drop lc)

/-- btree_node::merge (btree.hpp:2162-2195) on node `l`. -/
def merge (c : Cfg α κ) (h : Heap α) (l src : Nat) : Option (Heap α) := do
  let ln ← h.get l
  let sn ← h.get src
  check (ln.parent == sn.parent && ln.position + 1 == sn.position
    && 1 + ln.count + sn.count ≤ ln.cap c && ln.leaf == sn.leaf)
  let p := ln.parent
  let pn ← h.get p
  let d ← pn.vals[ln.position]?
  let h := h.set l { ln with vals := ln.vals ++ d :: sn.vals, kids := ln.kids ++ sn.kids }
  let h := h.set src { sn with vals := [], kids := [] }
  let h ← if ln.leaf then some h else initChildren h l (ln.count + 1) sn.kids
  removeValue h p ln.position

/-- btree_node::swap (btree.hpp:2198-2245), of two leaves: the only call
(btree.hpp:2971) swaps leaf roots. -/
def swapLeaves (c : Cfg α κ) (h : Heap α) (x y : Nat) : Option (Heap α) := do
  let xn ← h.get x
  let yn ← h.get y
  check (xn.leaf && yn.leaf && xn.count ≤ yn.cap c && yn.count ≤ xn.cap c)
  let h := h.set x { xn with vals := yn.vals }
  some (h.set y { yn with vals := xn.vals })

/-! ### Iterators -/

/-- The loop of increment_slow on leaves (btree.hpp:2256-2260). -/
def climb (h : Heap α) : Nat → It → Option It
  | 0, _ => none
  | f + 1, it => do
    let n ← h.get it.node
    if it.pos = n.count then
      let p ← h.get n.parent
      if p.leaf then some it else climb h f ⟨n.parent, n.position⟩
    else some it

/-- Down the first children to a leaf (btree.hpp:2267-2269). -/
def descendFirst (h : Heap α) : Nat → Nat → Option Nat
  | 0, _ => none
  | f + 1, id => do
    let n ← h.get id
    if n.leaf then some id
    else
      let k ← n.kids[0]?
      descendFirst h f k

/-- Down the last children to a leaf (btree.hpp:2290-2292). -/
def descendLast (h : Heap α) : Nat → Nat → Option Nat
  | 0, _ => none
  | f + 1, id => do
    let n ← h.get id
    if n.leaf then some id
    else
      let k ← n.kids[n.count]?
      descendLast h f k

/-- btree_iterator::increment and increment_slow (btree.hpp:1309-1314,
2252-2272). -/
def increment (h : Heap α) (it : It) : Option It := do
  let n ← h.get it.node
  if n.leaf then
    if it.pos + 1 < n.count then some ⟨it.node, it.pos + 1⟩
    else do
      check (n.count ≤ it.pos + 1)
      let r ← climb h (h.length + 1) ⟨it.node, it.pos + 1⟩
      let rn ← h.get r.node
      if r.pos = rn.count then some ⟨it.node, it.pos + 1⟩ else some r
  else do
    check (it.pos < n.count)
    let k ← n.kids[it.pos + 1]?
    let l ← descendFirst h (h.length + 1) k
    some ⟨l, 0⟩

/-- The loop of decrement_slow on leaves (btree.hpp:2279-2283), at position -1 of
node `id`. -/
def climbBack (h : Heap α) : Nat → Nat → Option It
  | 0, _ => none
  | f + 1, id => do
    let n ← h.get id
    let p ← h.get n.parent
    if p.leaf then none
    else if n.position = 0 then climbBack h f n.parent
    else some ⟨n.parent, n.position - 1⟩

/-- btree_iterator::decrement and decrement_slow (btree.hpp:1317-1322,
2275-2295). -/
def decrement (h : Heap α) (it : It) : Option It := do
  let n ← h.get it.node
  if n.leaf then
    if 1 ≤ it.pos then some ⟨it.node, it.pos - 1⟩
    else climbBack h (h.length + 1) it.node
  else do
    let k ← n.kids[it.pos]?
    let l ← descendLast h (h.length + 1) k
    let ln ← h.get l
    check (1 ≤ ln.count)
    some ⟨l, ln.count - 1⟩

/-- btree_iterator::operator* (btree.hpp:1334). -/
def deref (h : Heap α) (it : It) : Option α := do
  let n ← h.get it.node
  n.vals[it.pos]?

/-- btree::begin (btree.hpp:1519) with leftmost (btree.hpp:1763). -/
def Tree.begin (t : Tree α) : Option It := do
  let n ← t.heap.get t.root
  some ⟨n.parent, 0⟩

/-- btree::end (btree.hpp:1521). -/
def Tree.end (t : Tree α) : Option It := do
  let n ← t.heap.get t.rightmost
  some ⟨t.rightmost, n.count⟩

/-- `std::next(it, n)`: n times operator++ (btree.hpp:1339-1342). -/
def advance (h : Heap α) : Nat → It → Option It
  | 0, it => some it
  | n + 1, it => do
    let it ← increment h it
    advance h n it

/-- `std::next(begin(), n)`. -/
def Tree.iterAt (t : Tree α) (n : Nat) : Option It := do
  let b ← t.begin
  advance t.heap n b

/-- btree::internal_last (btree.hpp:2938-2950); the inner `none` is the null
iterator. -/
def internalLast (h : Heap α) : Nat → It → Option (Option It)
  | 0, _ => none
  | f + 1, it => do
    let n ← h.get it.node
    if it.pos = n.count then
      let p ← h.get n.parent
      if p.leaf then some none else internalLast h f ⟨n.parent, n.position⟩
    else some (some it)

/-! ### Search in the tree -/

/-- internal_locate_impl for plain comparisons (btree.hpp:2993-3008), and the
same loop in internal_lower_bound (btree.hpp:3031-3038). -/
def locatePlain (c : Cfg α κ) (h : Heap α) (k : κ) : Nat → Nat → Option It
  | 0, _ => none
  | f + 1, id => do
    let n ← h.get id
    let r ← lowerNode c n k
    if n.leaf then some ⟨id, r.value⟩
    else
      let kid ← n.kids[r.value]?
      locatePlain c h k f kid

/-- internal_locate_impl for compare-to (btree.hpp:3010-3027). -/
def locateTo (c : Cfg α κ) (h : Heap α) (k : κ) : Nat → Nat → Option (It × Bool)
  | 0, _ => none
  | f + 1, id => do
    let n ← h.get id
    let r ← lowerNode c n k
    if r.eq then some (⟨id, r.value⟩, true)
    else if n.leaf then some (⟨id, r.value⟩, false)
    else
      let kid ← n.kids[r.value]?
      locateTo c h k f kid

/-- The loop of internal_upper_bound (btree.hpp:3045-3052). -/
def locateUpper (c : Cfg α κ) (h : Heap α) (k : κ) : Nat → Nat → Option It
  | 0, _ => none
  | f + 1, id => do
    let n ← h.get id
    let r ← upperNode c n k
    if n.leaf then some ⟨id, r⟩
    else
      let kid ← n.kids[r]?
      locateUpper c h k f kid

/-- btree::internal_locate (btree.hpp:2985-2988): the position and, for
compare-to, whether the key is there. -/
def internalLocate (c : Cfg α κ) (t : Tree α) (k : κ) : Option (It × Bool) :=
  if c.cmpTo then locateTo c t.heap k (t.heap.length + 1) t.root
  else (locatePlain c t.heap k (t.heap.length + 1) t.root).map (·, false)

/-- btree::internal_lower_bound (btree.hpp:3030-3041). -/
def internalLowerBound (c : Cfg α κ) (t : Tree α) (k : κ) : Option (Option It) := do
  let it ← locatePlain c t.heap k (t.heap.length + 1) t.root
  internalLast t.heap (t.heap.length + 1) it

/-- btree::internal_upper_bound (btree.hpp:3044-3055). -/
def internalUpperBound (c : Cfg α κ) (t : Tree α) (k : κ) : Option (Option It) := do
  let it ← locateUpper c t.heap k (t.heap.length + 1) t.root
  internalLast t.heap (t.heap.length + 1) it

/-- btree::internal_find (btree.hpp:3058-3071). -/
def internalFind (c : Cfg α κ) (t : Tree α) (k : κ) : Option (Option It) := do
  let (it, eq) ← internalLocate c t k
  if c.cmpTo then
    if eq then some (some it) else some none
  else do
    match ← internalLast t.heap (t.heap.length + 1) it with
    | none => some none
    | some last => do
      let v ← deref t.heap last
      if !(c.lt k (c.key v)) then some (some last) else some none

/-- btree::internal_end (btree.hpp:1854). -/
def internalEnd (t : Tree α) : Option It → Option It
  | some it => some it
  | none => t.end

/-- btree::find (btree.hpp:1641-1644). -/
def Tree.find (c : Cfg α κ) (t : Tree α) (k : κ) : Option It := do
  internalEnd t (← internalFind c t k)

/-- btree::lower_bound (btree.hpp:1531-1534). -/
def Tree.lowerBound (c : Cfg α κ) (t : Tree α) (k : κ) : Option It := do
  internalEnd t (← internalLowerBound c t k)

/-- btree::upper_bound (btree.hpp:1543-1546). -/
def Tree.upperBound (c : Cfg α κ) (t : Tree α) (k : κ) : Option It := do
  internalEnd t (← internalUpperBound c t k)

/-- std::distance: the number of increments from `a` to `b`. -/
def distance (h : Heap α) : Nat → It → It → Option Nat
  | 0, a, b => if a = b then some 0 else none
  | f + 1, a, b =>
    if a = b then some 0
    else do
      let a' ← increment h a
      let d ← distance h f a' b
      some (d + 1)

/-- btree::count_unique (btree.hpp:1654-1661). -/
def Tree.countUnique (c : Cfg α κ) (t : Tree α) (k : κ) : Option Nat := do
  match ← internalFind c t k with
  | none => some 0
  | some _ => some 1

/-- btree::count_multi with equal_range (btree.hpp:1665-1669, 1557-1559). -/
def Tree.countMulti (c : Cfg α κ) (t : Tree α) (k : κ) : Option Nat := do
  let lo ← t.lowerBound c k
  let hi ← t.upperBound c k
  distance t.heap t.size lo hi

/-! ### Insertion -/

/-- The attempt of rebalance_or_split to make room with the left sibling
(btree.hpp:2753-2781): the inner `none` when it does not apply. -/
def tryLeft (c : Cfg α κ) (h : Heap α) (it : It) : Option (Option (Heap α × It)) := do
  let n ← h.get it.node
  if n.position = 0 then some none
  else do
    let p ← h.get n.parent
    let l ← p.kids[n.position - 1]?
    let ln ← h.get l
    check (ln.cap c == c.K)
    if ln.count < c.K then
      let toMove := max 1 ((c.K - ln.count) / (if it.pos < c.K then 2 else 1))
      if toMove ≤ it.pos || ln.count + toMove < c.K then do
        let h ← rebalanceRightToLeft c h toMove l it.node
        let ln ← h.get l
        if toMove ≤ it.pos then some (some (h, ⟨it.node, it.pos - toMove⟩))
        else some (some (h, ⟨l, it.pos + ln.count + 1 - toMove⟩))
      else some none
    else some none

/-- The attempt of rebalance_or_split to make room with the right sibling
(btree.hpp:2783-2809). -/
def tryRight (c : Cfg α κ) (h : Heap α) (it : It) : Option (Option (Heap α × It)) := do
  let n ← h.get it.node
  let p ← h.get n.parent
  if n.position < p.count then do
    let r ← p.kids[n.position + 1]?
    let rn ← h.get r
    check (rn.cap c == c.K)
    if rn.count < c.K then
      let toMove := max 1 ((c.K - rn.count) / (if 0 < it.pos then 2 else 1))
      if it.pos + toMove ≤ n.count || rn.count + toMove < c.K then do
        let h ← rebalanceLeftToRight c h toMove it.node r
        let n ← h.get it.node
        if n.count < it.pos then some (some (h, ⟨r, it.pos - n.count - 1⟩))
        else some (some (h, it))
      else some none
    else some none
  else some none

/-- The end of rebalance_or_split, once there is room in the parent
(btree.hpp:2832-2847). `parent` is the parent that the new node starts with. -/
def splitNode (c : Cfg α κ) (t : Tree α) (it : It) (parent : Nat) : Option (Tree α × It) := do
  let n ← t.heap.get it.node
  let dest := t.heap.length
  let h := t.heap.alloc ⟨parent, 0, if n.leaf then c.K else 0, [], []⟩
  let h ← split c h it.node it.pos dest
  let t := { t with heap := h,
                    rightmost := if n.leaf && t.rightmost == it.node then dest else t.rightmost }
  let n ← h.get it.node
  if n.count < it.pos then some (t, ⟨dest, it.pos - n.count - 1⟩) else some (t, it)

/-- The new root of rebalance_or_split (btree.hpp:2821-2829). -/
def growRoot (t : Tree α) : Option (Tree α) := do
  let rn ← t.heap.get t.root
  let p := t.heap.length
  let h := t.heap.alloc ⟨rn.parent, 0, 0, [], [t.root]⟩
  let h ← initChildren h p 0 [t.root]
  some { t with heap := h, root := p }

/-- btree::rebalance_or_split (btree.hpp:2743-2847). -/
def rebalanceOrSplit (c : Cfg α κ) : Nat → Tree α → It → Option (Tree α × It)
  | 0, _, _ => none
  | f + 1, t, it => do
    let n ← t.heap.get it.node
    check (n.count == n.cap c && n.cap c == c.K)
    if it.node = t.root then do
      let t' ← growRoot t
      splitNode c t' it t'.root
    else do
      match ← tryLeft c t.heap it with
      | some (h, it) => some ({ t with heap := h }, it)
      | none =>
        match ← tryRight c t.heap it with
        | some (h, it) => some ({ t with heap := h }, it)
        | none => do
          let p ← t.heap.get n.parent
          check (p.cap c == c.K)
          let t' ← if p.count = c.K then do
              let (t', _) ← rebalanceOrSplit c f t ⟨n.parent, n.position⟩
              some t'
            else some t
          splitNode c t' it n.parent

/-- The growth of a leaf root that is smaller than a full node
(btree.hpp:2965-2974). -/
def growLeafRoot (c : Cfg α κ) (t : Tree α) (it : It) (maxCount : Nat) : Option (Tree α × It) := do
  check (it.node == t.root)
  let id := t.heap.length
  let h := t.heap.alloc ⟨id, 0, min c.K (2 * maxCount), [], []⟩
  let h ← swapLeaves c h id t.root
  some ({ t with heap := h.free t.root, root := id, rightmost := id }, ⟨id, it.pos⟩)

/-- btree::internal_emplace (btree.hpp:2953-2982). -/
def internalEmplace (c : Cfg α κ) (t : Tree α) (it : It) (a : Arg α) : Option (It × Tree α) := do
  let n ← t.heap.get it.node
  let it ← if n.leaf then some it
    else do
      let it ← decrement t.heap it
      some ⟨it.node, it.pos + 1⟩
  let n ← t.heap.get it.node
  let (t, it) ← if n.count = n.cap c then
      if n.cap c < c.K then growLeafRoot c t it (n.cap c)
      else rebalanceOrSplit c (t.heap.length + 1) t it
    else some (t, it)
  let h ← emplaceLeaf c t.heap it.node it.pos a
  some (it, { t with heap := h, size := t.size + 1 })

/-- `mutable_root() = rightmost_ = new_leaf_root_node(1)` in an empty tree
(btree.hpp:2364-2366, 2426-2428; new_leaf_root_node, btree.hpp:1792-1795). -/
def firstRoot (t : Tree α) : Tree α :=
  if t.size = 0 then
    { t with heap := t.heap.alloc ⟨t.heap.length, 0, 1, [], []⟩,
             root := t.heap.length, rightmost := t.heap.length }
  else t

/-- Whether internal_locate found the key `k` (btree.hpp:2371-2380): the iterator
to it. -/
def locateFound (c : Cfg α κ) (t : Tree α) (k : κ) (it : It) (eq : Bool) : Option (Option It) :=
  if c.cmpTo then some (if eq then some it else none)
  else do
    match ← internalLast t.heap (t.heap.length + 1) it with
    | none => some none
    | some last => do
      let v ← deref t.heap last
      some (if !(c.lt k (c.key v)) then some last else none)

/-- btree::insert_unique (btree.hpp:2363-2385). -/
def insertUnique (c : Cfg α κ) (t : Tree α) (k : κ) (a : Arg α) : Option ((It × Bool) × Tree α) := do
  let t := firstRoot t
  let (it, eq) ← internalLocate c t k
  match ← locateFound c t k it eq with
  | some it => some ((it, false), t)
  | none => do
    let (it, t) ← internalEmplace c t it a
    some ((it, true), t)

/-- `it == stop || p(*it)`. -/
def stopOrAt (h : Heap α) (it stop : It) (p : α → Bool) : Option Bool :=
  if it = stop then some true
  else do
    let v ← deref h it
    some (p v)

/-- `it == stop || p(*std::prev(it))`. -/
def stopOrBefore (h : Heap α) (it stop : It) (p : α → Bool) : Option Bool :=
  if it = stop then some true
  else do
    let prev ← decrement h it
    let v ← deref h prev
    some (p v)

/-- btree::insert_hint_unique (btree.hpp:2389-2413). -/
def insertHintUnique (c : Cfg α κ) (t : Tree α) (pos : It) (k : κ) (a : Arg α) :
    Option ((It × Bool) × Tree α) :=
  if t.size = 0 then insertUnique c t k a
  else do
    let e ← t.end
    let b ← t.begin
    if ← stopOrAt t.heap pos e (fun v => c.lt k (c.key v)) then do
      if ← stopOrBefore t.heap pos b (fun v => c.lt (c.key v) k) then do
        let (it, t) ← internalEmplace c t pos a
        some ((it, true), t)
      else insertUnique c t k a
    else do
      let v ← deref t.heap pos
      if c.lt (c.key v) k then do
        let next ← increment t.heap pos
        if ← stopOrAt t.heap next e (fun v => c.lt k (c.key v)) then do
          let (it, t) ← internalEmplace c t next a
          some ((it, true), t)
        else insertUnique c t k a
      else some ((pos, false), t)

/-- btree::insert_iterator_unique (btree.hpp:2415-2421). -/
def insertAllUnique (c : Cfg α κ) (t : Tree α) : List α → Option (Tree α)
  | [] => some t
  | v :: vs => do
    let e ← t.end
    let (_, t) ← insertHintUnique c t e (c.key v) (.val v)
    insertAllUnique c t vs

/-- btree::insert_multi (btree.hpp:2425-2435). -/
def insertMulti (c : Cfg α κ) (t : Tree α) (k : κ) (a : Arg α) : Option (It × Tree α) := do
  let t := firstRoot t
  let it ← internalUpperBound c t k
  let it ← internalEnd t it
  internalEmplace c t it a

/-- btree::insert_hint_multi (btree.hpp:2439-2460); `k` is the key of the value. -/
def insertHintMulti (c : Cfg α κ) (t : Tree α) (pos : It) (k : κ) (a : Arg α) : Option (It × Tree α) :=
  if t.size = 0 then insertMulti c t k a
  else do
    let e ← t.end
    let b ← t.begin
    if ← stopOrAt t.heap pos e (fun v => !(c.lt (c.key v) k)) then do
      if ← stopOrBefore t.heap pos b (fun v => !(c.lt k (c.key v))) then internalEmplace c t pos a
      else insertMulti c t k a
    else do
      let next ← increment t.heap pos
      if ← stopOrAt t.heap next e (fun v => !(c.lt (c.key v) k)) then internalEmplace c t next a
      else insertMulti c t k a

/-- btree::insert_iterator_multi (btree.hpp:2462-2468). -/
def insertAllMulti (c : Cfg α κ) (t : Tree α) : List α → Option (Tree α)
  | [] => some t
  | v :: vs => do
    let e ← t.end
    let (_, t) ← insertHintMulti c t e (c.key v) (.val v)
    insertAllMulti c t vs

/-! ### Erasure -/

/-- delete_leaf_node, delete_internal_node (btree.hpp:1809-1816). -/
def deleteNode (h : Heap α) (id : Nat) : Option (Heap α) := do
  let _ ← h.get id
  some (h.free id)

/-- btree::merge_nodes (btree.hpp:2850-2859). -/
def mergeNodes (c : Cfg α κ) (t : Tree α) (l r : Nat) : Option (Tree α) := do
  let h ← merge c t.heap l r
  let rn ← h.get r
  let h ← deleteNode h r
  some { t with heap := h, rightmost := if rn.leaf && t.rightmost == r then l else t.rightmost }

/-- The attempt of try_merge_or_rebalance to merge with the left sibling
(btree.hpp:2864-2875): the inner `none` when it does not apply. -/
def tryMergeLeft (c : Cfg α κ) (t : Tree α) (it : It) : Option (Option (It × Tree α)) := do
  let n ← t.heap.get it.node
  if n.position = 0 then some none
  else do
    let p ← t.heap.get n.parent
    let l ← p.kids[n.position - 1]?
    let ln ← t.heap.get l
    check (ln.cap c == c.K)
    if 1 + ln.count + n.count ≤ c.K then do
      let t ← mergeNodes c t l it.node
      some (some (⟨l, it.pos + (1 + ln.count)⟩, t))
    else some none

/-- The attempt of try_merge_or_rebalance to merge or rebalance with the right
sibling (btree.hpp:2876-2896): whether nodes were merged, and the tree. -/
def tryRightSide (c : Cfg α κ) (t : Tree α) (it : It) : Option (Option (Bool × Tree α)) := do
  let n ← t.heap.get it.node
  let p ← t.heap.get n.parent
  if n.position < p.count then do
    let r ← p.kids[n.position + 1]?
    let rn ← t.heap.get r
    check (rn.cap c == c.K)
    if 1 + n.count + rn.count ≤ c.K then do
      let t ← mergeNodes c t it.node r
      some (some (true, t))
    else if c.minK < rn.count && (n.count == 0 || 0 < it.pos) then do
      let toMove := min ((rn.count - n.count) / 2) (rn.count - 1)
      let h ← rebalanceRightToLeft c t.heap toMove it.node r
      some (some (false, { t with heap := h }))
    else some none
  else some none

/-- The attempt of try_merge_or_rebalance to rebalance with the left sibling
(btree.hpp:2897-2912). -/
def tryRebalanceLeft (c : Cfg α κ) (t : Tree α) (it : It) : Option (It × Tree α) := do
  let n ← t.heap.get it.node
  if n.position = 0 then some (it, t)
  else do
    let p ← t.heap.get n.parent
    let l ← p.kids[n.position - 1]?
    let ln ← t.heap.get l
    if c.minK < ln.count && (n.count == 0 || it.pos < n.count) then do
      let toMove := min ((ln.count - n.count) / 2) (ln.count - 1)
      let h ← rebalanceLeftToRight c t.heap toMove l it.node
      some (⟨it.node, it.pos + toMove⟩, { t with heap := h })
    else some (it, t)

/-- btree::try_merge_or_rebalance (btree.hpp:2862-2914): whether nodes were
merged, the iterator and the tree. -/
def tryMergeOrRebalance (c : Cfg α κ) (t : Tree α) (it : It) : Option (Bool × It × Tree α) := do
  match ← tryMergeLeft c t it with
  | some (it, t) => some (true, it, t)
  | none =>
    match ← tryRightSide c t it with
    | some (merged, t) => some (merged, it, t)
    | none => do
      let (it, t) ← tryRebalanceLeft c t it
      some (false, it, t)

/-- btree::try_shrink (btree.hpp:2917-2934) with make_root (btree.hpp:981-984). -/
def tryShrink (t : Tree α) : Option (Tree α) := do
  let rn ← t.heap.get t.root
  if 0 < rn.count then some t
  else if rn.leaf then do
    check (t.size == 0)
    let h ← deleteNode t.heap t.root
    some { t with heap := h, root := 0, rightmost := 0 }
  else do
    let k ← rn.kids[0]?
    let kn ← t.heap.get k
    let pn ← t.heap.get kn.parent
    let ppn ← t.heap.get pn.parent
    check ppn.leaf
    let h := t.heap.set k { kn with parent := pn.parent }
    let h ← deleteNode h t.root
    some { t with heap := h, root := k }

/-- The loop of rebalance_after_delete (btree.hpp:2555-2584): the tree and `res`,
which is `none` when the tree became empty. -/
def rebalanceLoop (c : Cfg α κ) : Nat → Tree α → It → It → Bool → Option (Tree α × Option It)
  | 0, _, _, _, _ => none
  | f + 1, t, iter, res, first =>
    if iter.node = t.root then do
      let t ← tryShrink t
      if t.size = 0 then some (t, none) else some (t, some res)
    else do
      let n ← t.heap.get iter.node
      if c.minK ≤ n.count then some (t, some res)
      else do
        let (merged, iter, t) ← tryMergeOrRebalance c t iter
        let res := if first then iter else res
        if merged then do
          let n ← t.heap.get iter.node
          rebalanceLoop c f t ⟨n.parent, n.position⟩ res false
        else some (t, some res)

/-- `res.position = -1; ++res` in an empty leaf (btree.hpp:2589-2590; increment, btree.hpp:1311-1316, and
increment_slow, btree.hpp:2252-2264): the position becomes 0, which is not less than `count()`. -/
def incrementEmpty (h : Heap α) (id : Nat) : Option It := do
  let n ← h.get id
  check n.leaf
  let r ← climb h (h.length + 1) ⟨id, 0⟩
  let rn ← h.get r.node
  if r.pos = rn.count then some ⟨id, 0⟩ else some r

/-- btree::rebalance_after_delete (btree.hpp:2555-2594). -/
def rebalanceAfterDelete (c : Cfg α κ) (t : Tree α) (it : It) : Option (It × Tree α) := do
  let (t, res) ← rebalanceLoop c (t.heap.length + 1) t it it true
  match res with
  | none => do
    let e ← t.end
    some (e, t)
  | some res => do
    let n ← t.heap.get res.node
    if res.pos = n.count then do
      let r ← if n.count = 0 then incrementEmpty t.heap res.node
        else increment t.heap ⟨res.node, n.count - 1⟩
      some (r, t)
    else some (res, t)

/-- btree::erase(iterator) (btree.hpp:2517-2552). -/
def eraseIt (c : Cfg α κ) (t : Tree α) (it : It) : Option (It × Tree α) := do
  let n ← t.heap.get it.node
  if n.leaf then do
    let h ← removeValue t.heap it.node it.pos
    rebalanceAfterDelete c { t with heap := h, size := t.size - 1 } it
  else do
    let prev ← decrement t.heap it
    let pn ← t.heap.get prev.node
    check pn.leaf
    let v ← pn.vals[prev.pos]?
    check (it.pos < n.count)
    let h := t.heap.set it.node { n with vals := n.vals.set it.pos v }
    let h ← removeValue h prev.node prev.pos
    let (res, t) ← rebalanceAfterDelete c { t with heap := h, size := t.size - 1 } prev
    let res ← increment t.heap res
    some (res, t)

/-- btree::internal_clear (btree.hpp:3074-3082). -/
def internalClear (h : Heap α) : Nat → Nat → Option (Heap α)
  | 0, _ => none
  | f + 1, id => do
    let n ← h.get id
    let h ← if n.leaf then some h
      else n.kids.foldlM (fun h k => internalClear h f k) h
    deleteNode h id

/-- btree::clear (btree.hpp:2703-2710). -/
def Tree.clear (t : Tree α) : Option (Tree α) := do
  let h ← if t.size = 0 then some t.heap else internalClear t.heap (t.heap.length + 1) t.root
  some { heap := h, root := 0, rightmost := 0, size := 0 }

/-- btree::erase_same_node (btree.hpp:2630-2658). -/
def eraseSameNode (h : Heap α) (b e : It) : Option (Heap α) := do
  check (b.node == e.node && b.pos < e.pos)
  let n ← h.get b.node
  let toErase := e.pos - b.pos
  let h ← if n.leaf then some h
    else do
      check (e.pos ≤ n.count)
      let h ← ((n.kids.drop (b.pos + 1)).take toErase).foldlM
        (fun h k => internalClear h (h.length + 1) k) h
      let h := h.set b.node { n with kids := n.kids.take (b.pos + 1) ++ n.kids.drop (b.pos + 1 + toErase) }
      setPositions h (b.pos + 1) (n.kids.drop (b.pos + 1 + toErase))
  removeValues h b.node b.pos toErase

/-- The loop of erase(iterator, iterator) with erase_from_leaf_node
(btree.hpp:2616-2626, 2661-2673). -/
def eraseLoop (c : Cfg α κ) (target : Nat) : Nat → Tree α → It → Option (It × Tree α)
  | 0, t, b => if target < t.size then none else some (b, t)
  | f + 1, t, b =>
    if target < t.size then do
      let n ← t.heap.get b.node
      if n.leaf then do
        let k := min (t.size - target) (n.count - b.pos)
        check (b.pos < n.count && b.pos + k ≤ n.count)
        let h ← removeValues t.heap b.node b.pos k
        let (b, t) ← rebalanceAfterDelete c { t with heap := h, size := t.size - k } b
        eraseLoop c target f t b
      else do
        let (b, t) ← eraseIt c t b
        eraseLoop c target f t b
    else some (b, t)

/-- btree::erase(iterator, iterator) (btree.hpp:2597-2627). -/
def eraseRange (c : Cfg α κ) (t : Tree α) (b e : It) : Option ((Nat × It) × Tree α) := do
  let count ← distance t.heap t.size b e
  if count = 0 then some ((0, b), t)
  else if count = t.size then do
    let t ← t.clear
    let e ← t.end
    some ((count, e), t)
  else if b.node = e.node then do
    let h ← eraseSameNode t.heap b e
    let (r, t) ← rebalanceAfterDelete c { t with heap := h, size := t.size - count } b
    some ((count, r), t)
  else do
    let (r, t) ← eraseLoop c (t.size - count) count t b
    some ((count, r), t)

/-- btree::erase_unique (btree.hpp:2676-2686). -/
def eraseUnique (c : Cfg α κ) (t : Tree α) (k : κ) : Option (Nat × Tree α) := do
  match ← internalFind c t k with
  | none => some (0, t)
  | some it => do
    let (_, t) ← eraseIt c t it
    some (1, t)

/-- btree::erase_multi (btree.hpp:2689-2700). -/
def eraseMulti (c : Cfg α κ) (t : Tree α) (k : κ) : Option (Nat × Tree α) := do
  match ← internalLowerBound c t k with
  | none => some (0, t)
  | some b => do
    let e ← internalEnd t (← internalUpperBound c t k)
    let ((n, _), t) ← eraseRange c t b e
    some (n, t)

/-! ### Whole containers -/

/-- The values met from `it` to `e`, as a range-for loop or std::equal reads them. -/
def traverse (h : Heap α) (e : It) : Nat → It → Option (List α)
  | 0, it => if it = e then some [] else none
  | f + 1, it =>
    if it = e then some []
    else do
      let v ← deref h it
      let it' ← increment h it
      let vs ← traverse h e f it'
      some (v :: vs)

/-- `for (auto& v : tree)`: the values from begin() to end(). -/
def Tree.toList (t : Tree α) : Option (List α) := do
  let b ← t.begin
  let e ← t.end
  traverse t.heap e t.size b

/-- btree::copy_or_move_values_in_order (btree.hpp:2302-2321) into `t`, once the
values `vs` have been read from the other tree: internal_emplace at end(). -/
def appendAll (c : Cfg α κ) (t : Tree α) : List α → Option (Tree α)
  | [] => some t
  | v :: vs => do
    let e ← t.end
    let (_, t) ← internalEmplace c t e (.val v)
    appendAll c t vs

/-- The rest of copy_or_move_values_in_order: from `x` into the empty tree `t`.
The loop reads the values of `x` one at a time; `x` does not change meanwhile. -/
def copyInto (c : Cfg α κ) (t x : Tree α) : Option (Tree α) := do
  match ← x.toList with
  | [] => some t
  | v :: vs => do
    let (_, t) ← insertMulti c t (c.key v) (.val v)
    appendAll c t vs

/-- btree::btree(const btree&) (btree.hpp:2357-2360). -/
def Tree.copy (c : Cfg α κ) (x : Tree α) : Option (Tree α) := copyInto c Tree.empty x

/-- btree::operator=(const btree&) of two different trees (btree.hpp:2471-2483);
`c` is the configuration of `x`, whose comparison is taken over. -/
def Tree.assign (c : Cfg α κ) (t x : Tree α) : Option (Tree α) := do
  let t ← t.clear
  copyInto c t x

/-- The values met backwards from `it` to `b`, as reverse iterators read them:
`*std::prev(it)` and then `--it`. -/
def traverseBack (h : Heap α) (b : It) : Nat → It → Option (List α)
  | 0, it => if it = b then some [] else none
  | f + 1, it =>
    if it = b then some []
    else do
      let it' ← decrement h it
      let v ← deref h it'
      let vs ← traverseBack h b f it'
      some (v :: vs)

/-- From rbegin() to rend() (btree.hpp:1525-1529). -/
def Tree.toListBack (t : Tree α) : Option (List α) := do
  let b ← t.begin
  let e ← t.end
  traverseBack t.heap b t.size e

/-- Writing through an iterator, `it->second = x` for maps (operator*,
btree.hpp:1336): the value in the slot becomes `v`. -/
def Tree.write (t : Tree α) (it : It) (v : α) : Option (Tree α) := do
  let n ← t.heap.get it.node
  check (it.pos < n.count)
  some { t with heap := t.heap.set it.node { n with vals := n.vals.set it.pos v } }

/-- contains (btree.hpp:3188-3190). -/
def Tree.contains (c : Cfg α κ) (t : Tree α) (k : κ) : Option Bool := do
  let it ← t.find c k
  let e ← t.end
  some (it != e)

/-- The loop of erase_if (btree.hpp:3727-3735, 3785-3793, 3845-3853, 3903-3911)
from `it` on. -/
def eraseIfLoop (c : Cfg α κ) (p : α → Bool) : Nat → Tree α → It → Option (Tree α)
  | 0, t, it => do
    let e ← t.end
    if it = e then some t else none
  | f + 1, t, it => do
    let e ← t.end
    if it = e then some t
    else do
      let v ← deref t.heap it
      if p v then do
        let (it, t) ← eraseIt c t it
        eraseIfLoop c p f t it
      else do
        let it ← increment t.heap it
        eraseIfLoop c p f t it

/-- `erase_if` (btree.hpp:3727-3735, 3785-3793, 3845-3853, 3903-3911). -/
def Tree.eraseIf (c : Cfg α κ) (t : Tree α) (p : α → Bool) : Option (Tree α) := do
  let b ← t.begin
  eraseIfLoop c p t.size t b

/-- The loop of btree_set_container::merge (btree.hpp:3418-3426): `t` takes from
`s`, which may be of another kind of container, what it lacks. -/
def mergeLoop (c cs : Cfg α κ) : Nat → Tree α → Tree α → It → Option (Tree α × Tree α)
  | 0, t, s, it => do
    let e ← s.end
    if it = e then some (t, s) else none
  | f + 1, t, s, it => do
    let e ← s.end
    if it = e then some (t, s)
    else do
      let v ← deref s.heap it
      let ((_, b), t) ← insertUnique c t (c.key v) (.val v)
      if b then do
        let (it, s) ← eraseIt cs s it
        mergeLoop c cs f t s it
      else do
        let it ← increment s.heap it
        mergeLoop c cs f t s it

/-- `btree_set_container::merge` (btree.hpp:3418-3432). -/
def mergeUnique (c cs : Cfg α κ) (t s : Tree α) : Option (Tree α × Tree α) := do
  let b ← s.begin
  mergeLoop c cs s.size t s b

/-- btree_multiset_container::merge (btree.hpp:3646-3649): the range of `s` is
read while it is inserted; `s` does not change meanwhile. -/
def mergeMulti (c : Cfg α κ) (t s : Tree α) : Option (Tree α × Tree α) := do
  let vs ← s.toList
  let t ← insertAllMulti c t vs
  let s ← s.clear
  some (t, s)

/-- The comparison of two trees by ==, with `eq` the == of the values
(btree.hpp:3253-3255). -/
def Tree.beq (eq : α → α → Bool) (t s : Tree α) : Option Bool :=
  if t.size = s.size then do
    let a ← t.toList
    let b ← s.toList
    some ((a.zip b).all fun x => eq x.1 x.2)
  else some false

/-- std::lexicographical_compare of what two trees hold, with `less` the < of the
values. -/
def lexCompare (less : α → α → Bool) : List α → List α → Bool
  | _, [] => false
  | [], _ :: _ => true
  | a :: as, b :: bs => if less a b then true else if less b a then false else lexCompare less as bs

/-- The comparison of two trees by < (btree.hpp:3259-3261). -/
def Tree.less (less : α → α → Bool) (t s : Tree α) : Option Bool := do
  let a ← t.toList
  let b ← s.toList
  some (lexCompare less a b)

/-- btree_container::extract (btree.hpp:3227-3234): the value is moved to the node
handle and its slot erased. -/
def Tree.extract (c : Cfg α κ) (t : Tree α) (it : It) : Option (α × Tree α) := do
  let v ← deref t.heap it
  let (_, t) ← eraseIt c t it
  some (v, t)

/-- extract(key) (btree.hpp:3404-3408, 3630-3634): `none` is the empty handle. -/
def Tree.extractKey (c : Cfg α κ) (t : Tree α) (k : κ) : Option (Option α × Tree α) := do
  let it ← t.find c k
  let e ← t.end
  if it = e then some (none, t)
  else do
    let (v, t) ← t.extract c it
    some (some v, t)

/-- btree::operator=(btree&&) of two different trees with equal allocators
(btree.hpp:2486-2500): both trees after. -/
def Tree.moveAssign (t x : Tree α) : Option (Tree α × Tree α) := do
  let t ← t.clear
  some (x, t)

end Gtl.Btree
