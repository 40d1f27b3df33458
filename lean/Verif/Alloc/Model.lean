import Verif.Spec.AllocOwner
/-
Containers with allocators that have state and may compare unequal: which allocator hands out each block and
which takes it back, in the constructors, assignments, `swap` and destructors of the hash containers, the
parallel hash containers, the B-tree containers and `gtl::vector`. `none` is undefined behaviour: an allocator
is given a block that is not one of its own. Elements are kept as a list; how they are laid out in the blocks
is the subject of the other models.
-/
namespace Gtl.Alloc
open Gtl.Spec.AllocOwner
variable {A α : Type}

/-- The blocks that allocators have handed out and not got back: address and allocator. -/
structure Heap (A : Type) where
  next : Nat
  live : List (Nat × A)

/-- `allocate`, `k` times. Simplification: addresses are never used again. -/
def Heap.take (h : Heap A) (a : A) : Nat → List Nat × Heap A
  | 0 => ([], h)
  | k + 1 => ((h.next :: (Heap.take ⟨h.next + 1, (h.next, a) :: h.live⟩ a k).1),
      (Heap.take ⟨h.next + 1, (h.next, a) :: h.live⟩ a k).2)

/-- `deallocate` by allocator `a` of each of these blocks: undefined unless `a` has handed it out. -/
def Heap.give [DecidableEq A] (h : Heap A) (a : A) : List Nat → Option (Heap A)
  | [] => some h
  | b :: bs => if (b, a) ∈ h.live then Heap.give ⟨h.next, h.live.erase (b, a)⟩ a bs else none

/-- A container: its allocator, the blocks it holds, its elements. -/
structure Cont (A α : Type) where
  alloc : A
  blocks : List Nat
  vals : List α
  deriving DecidableEq, Repr

/-- What depends on sizes and hash values and is left open here. -/
structure Pick (α : Type) where
  /-- which blocks the calls in `use` keep -/
  keep : Nat → Bool
  /-- how many blocks are allocated -/
  fresh : Nat
  /-- does what is assigned fit in the memory that is there? -/
  fits : Bool
  /-- the elements after the calls in `use` -/
  vals : List α

/-- The template arguments: traits of the allocator, `select_on_container_copy_construction`, the allocator that
`Alloc()` makes, and what is left of an element that was moved from. -/
structure Env (A α : Type) where
  tr : Traits
  select : A → A
  dflt : A
  husk : α → α

variable [DecidableEq A]

/-- Calls on one container: blocks come from its allocator and go back to it, phmap.hpp:2636-2694 (hash
containers), btree.hpp:1789-1831 (nodes of B-trees), vector.hpp:143-186. -/
def use (p : Pick α) (x : Cont A α) (h : Heap A) : Option (Cont A α × Heap A) :=
  (h.give x.alloc (x.blocks.filter (fun b => !p.keep b))).map fun h =>
    (⟨x.alloc, x.blocks.filter p.keep ++ (h.take x.alloc p.fresh).1, p.vals⟩, (h.take x.alloc p.fresh).2)

/-- An empty container, perhaps with memory reserved (phmap.hpp:1708-1720). -/
def make (p : Pick α) (a : A) (h : Heap A) : Cont A α × Heap A :=
  (⟨a, (h.take a p.fresh).1, []⟩, (h.take a p.fresh).2)

/-- The destructors: phmap.hpp:1886 and 2648-2668, btree.hpp:1508-1517, vector.hpp:139 and 172-186. -/
def destroy (x : Cont A α) (h : Heap A) : Option (Heap A) := h.give x.alloc x.blocks

/-- A container with allocator `a` and copies of the elements of `x` in memory of its own: phmap.hpp:1817-1830,
btree.hpp:2356-2359, vector.hpp:696-699 and 704-705. -/
def copyWith (p : Pick α) (a : A) (x : Cont A α) (h : Heap A) : Cont A α × Heap A :=
  (⟨a, (h.take a p.fresh).1, x.vals⟩, (h.take a p.fresh).2)

/-- The move constructors: phmap.hpp:1832-1846, btree.hpp:1501-1506, vector.hpp:131-137 and 701-702. -/
def move (x : Cont A α) : Cont A α × Cont A α := (x, ⟨x.alloc, [], []⟩)

/-- `C(C&& that, const Alloc& a)`: phmap.hpp:1848-1869, vector.hpp:707-715. -/
def moveWith (e : Env A α) (p : Pick α) (a : A) (x : Cont A α) (h : Heap A) : Cont A α × Cont A α × Heap A :=
  if a = x.alloc then (⟨a, x.blocks, x.vals⟩, ⟨x.alloc, [], []⟩, h)
  else (⟨a, (h.take a p.fresh).1, x.vals⟩, ⟨x.alloc, x.blocks, x.vals.map e.husk⟩, (h.take a p.fresh).2)

/-- `swap`: phmap.hpp:2310-2329, btree.hpp:2713-2727, vector.hpp:1096-1102. -/
def swap (e : Env A α) (x y : Cont A α) : Cont A α × Cont A α :=
  if e.tr.swap then (y, x) else (⟨x.alloc, y.blocks, y.vals⟩, ⟨y.alloc, x.blocks, x.vals⟩)

/-! ### Hash containers -/

/-- `raw_hash_set::operator=(const raw_hash_set&)`, phmap.hpp:1871-1876. -/
def hashCopyAssign (e : Env A α) (p : Pick α) (x y : Cont A α) (h : Heap A) : Option (Cont A α × Heap A) :=
  let t := copyWith p (if e.tr.copyAssign then y.alloc else x.alloc) y h
  let s := swap e x t.1
  (destroy s.2 t.2).map fun h => (s.1, h)

/-- `raw_hash_set::operator=(raw_hash_set&&)` and `move_assign`, phmap.hpp:1878-1884 and 2825-2835. -/
def hashMoveAssign (e : Env A α) (p : Pick α) (x y : Cont A α) (h : Heap A) :
    Option (Cont A α × Cont A α × Heap A) :=
  if e.tr.moveAssign then
    let t := move y
    let s := swap e x t.1
    (destroy s.2 h).map fun h => (s.1, t.2, h)
  else
    let t := moveWith e p x.alloc y h
    let s := swap e x t.1
    (destroy s.2 t.2.2).map fun h => (s.1, t.2.1, h)

/-! ### Parallel hash containers: a list of hash containers -/

/-- Each submap in turn. -/
def each (f : Pick α → Cont A α → Heap A → Option (Cont A α × Heap A)) (p : Nat → Pick α) :
    Nat → List (Cont A α) → Heap A → Option (List (Cont A α) × Heap A)
  | _, [], h => some ([], h)
  | k, x :: xs, h => (f (p k) x h).bind fun r => (each f p (k + 1) xs r.2).map fun s => (r.1 :: s.1, s.2)

/-- Each submap of one container with the one of the same number in another. -/
def each2 (f : Pick α → Cont A α → Cont A α → Heap A → Option (Cont A α × Cont A α × Heap A)) (p : Nat → Pick α) :
    Nat → List (Cont A α) → List (Cont A α) → Heap A → Option (List (Cont A α) × List (Cont A α) × Heap A)
  | k, x :: xs, y :: ys, h => (f (p k) x y h).bind fun r =>
      (each2 f p (k + 1) xs ys r.2.2).map fun s => (r.1 :: s.1, r.2.1 :: s.2.1, s.2.2)
  | _, _, _, h => some ([], [], h)

/-- `sets_[i].set_ = { that.sets_[i].set_, a }` in the constructor that copies, phmap.hpp:3514-3518: the submap,
made with `a`, is assigned a temporary, which is destroyed. -/
def parCopyOne (e : Env A α) (a : A) (p : Pick α) (y : Cont A α) (h : Heap A) : Option (Cont A α × Heap A) :=
  let t := copyWith p a y h
  (hashMoveAssign e p ⟨a, [], []⟩ t.1 t.2).bind fun r => (destroy r.2.1 r.2.2).map fun h => (r.1, h)

/-- `sets_[i].set_ = { std::move(that.sets_[i]).set_, a }` in the constructor that moves, phmap.hpp:3525-3528: the
submap was made with `Alloc()`. -/
def parMoveOne (e : Env A α) (a : A) (p : Pick α) (_ : Cont A α) (y : Cont A α) (h : Heap A) :
    Option (Cont A α × Cont A α × Heap A) :=
  let t := moveWith e p a y h
  (hashMoveAssign e p ⟨e.dflt, [], []⟩ t.1 t.2.2).bind fun r =>
    (destroy r.2.1 r.2.2).map fun h => (r.1, t.2.1, h)

/-- `alloc_ref()` of a parallel container: that of the first submap, phmap.hpp:4439-4440. -/
def parAlloc (e : Env A α) (x : List (Cont A α)) : A := (x.head?.map Cont.alloc).getD e.dflt

/-! ### B-tree containers -/

/-- `btree::operator=(const btree&)`, btree.hpp:2470-2483. -/
def btreeCopyAssign (e : Env A α) (p : Pick α) (x y : Cont A α) (h : Heap A) : Option (Cont A α × Heap A) :=
  (destroy x h).map fun h => copyWith p (if e.tr.copyAssign then y.alloc else x.alloc) y h

/-- `btree::operator=(btree&&)`, btree.hpp:2485-2513. It asks for `propagate_on_container_copy_assignment`. -/
def btreeMoveAssign (e : Env A α) (p : Pick α) (x y : Cont A α) (h : Heap A) :
    Option (Cont A α × Cont A α × Heap A) :=
  (destroy x h).map fun h =>
    if e.tr.copyAssign then (y, ⟨x.alloc, [], []⟩, h)
    else if x.alloc = y.alloc then (⟨x.alloc, y.blocks, y.vals⟩, ⟨y.alloc, [], []⟩, h)
    else ((copyWith p x.alloc y h).1, ⟨y.alloc, y.blocks, y.vals.map e.husk⟩, (copyWith p x.alloc y h).2)

/-! ### `gtl::vector` -/

/-- `assign(first, last)`, vector.hpp:825-840. -/
def vecAssign (p : Pick α) (vs : List α) (x : Cont A α) (h : Heap A) : Option (Cont A α × Heap A) :=
  if p.fits then some (⟨x.alloc, x.blocks, vs⟩, h)
  else (destroy x h).map fun h => (⟨x.alloc, (h.take x.alloc p.fresh).1, vs⟩, (h.take x.alloc p.fresh).2)

/-- `vector::operator=(const vector&)`, vector.hpp:737-752. -/
def vecCopyAssign (e : Env A α) (p : Pick α) (x y : Cont A α) (h : Heap A) : Option (Cont A α × Heap A) :=
  if e.tr.copyAssign then
    if x.alloc ≠ y.alloc then (destroy x h).bind (vecAssign p y.vals ⟨y.alloc, [], []⟩)
    else vecAssign p y.vals ⟨y.alloc, x.blocks, x.vals⟩ h
  else vecAssign p y.vals x h

/-- `vector::operator=(vector&&)` and `moveFrom`, vector.hpp:754-760 and 814-823. -/
def vecMoveAssign (e : Env A α) (p : Pick α) (x y : Cont A α) (h : Heap A) :
    Option (Cont A α × Cont A α × Heap A) :=
  if e.tr.moveAssign then some (y, x, h)
  else if x.alloc = y.alloc then some (⟨x.alloc, y.blocks, y.vals⟩, ⟨y.alloc, x.blocks, x.vals⟩, h)
  else (destroy x h).map fun h =>
    (⟨x.alloc, (h.take x.alloc p.fresh).1, y.vals⟩, ⟨y.alloc, y.blocks, y.vals.map e.husk⟩, (h.take x.alloc p.fresh).2)

/-! ### The four kinds, and programs that use several containers of one kind -/

/-- The operations of a kind of container whose objects are `S`. -/
structure Lib (A α S : Type) where
  /-- `get_allocator()` and the elements -/
  get : S → A × List α
  /-- the blocks it holds, each with the allocator that it will be given back to -/
  held : S → List (Nat × A)
  make : (Nat → Pick α) → A → Heap A → Option (S × Heap A)
  use : (Nat → Pick α) → S → Heap A → Option (S × Heap A)
  copy : (Nat → Pick α) → S → Heap A → Option (S × Heap A)
  copyWith : (Nat → Pick α) → A → S → Heap A → Option (S × Heap A)
  /-- the new container, then what is left of the old one -/
  move : (Nat → Pick α) → S → Heap A → Option (S × S × Heap A)
  moveWith : (Nat → Pick α) → A → S → Heap A → Option (S × S × Heap A)
  copyAssign : (Nat → Pick α) → S → S → Heap A → Option (S × Heap A)
  moveAssign : (Nat → Pick α) → S → S → Heap A → Option (S × S × Heap A)
  swap : S → S → S × S
  destroy : S → Heap A → Option (Heap A)

/-- The blocks of a container with the allocator that will take them back. -/
def Cont.held (x : Cont A α) : List (Nat × A) := x.blocks.map fun b => (b, x.alloc)

/-- `flat_hash_set`, `flat_hash_map`, `node_hash_set`, `node_hash_map`. -/
def hashLib (e : Env A α) : Lib A α (Cont A α) where
  get x := (x.alloc, x.vals)
  held := Cont.held
  make p a h := some (Alloc.make (p 0) a h)
  use p := Alloc.use (p 0)
  -- phmap.hpp:1814-1815
  copy p x h := some (Alloc.copyWith (p 0) (e.select x.alloc) x h)
  copyWith p a x h := some (Alloc.copyWith (p 0) a x h)
  move _ x h := some ((Alloc.move x).1, (Alloc.move x).2, h)
  moveWith p a x h := some (Alloc.moveWith e (p 0) a x h)
  copyAssign p := hashCopyAssign e (p 0)
  moveAssign p := hashMoveAssign e (p 0)
  swap := Alloc.swap e
  destroy := Alloc.destroy

/-- The parallel hash containers with `n` submaps. -/
def parLib (e : Env A α) (n : Nat) : Lib A α (List (Cont A α)) where
  get x := (parAlloc e x, x.flatMap Cont.vals)
  held x := x.flatMap Cont.held
  -- phmap.hpp:3402-3411
  make p a h := each (fun p _ h => some (Alloc.make p a h)) p 0 (List.replicate n ⟨a, [], []⟩) h
  use p x h := each Alloc.use p 0 x h
  -- phmap.hpp:3511-3518
  copy p x h := each (parCopyOne e (e.select (parAlloc e x))) p 0 x h
  copyWith p a x h := each (parCopyOne e a) p 0 x h
  -- phmap.hpp:3520-3528
  move p x h := each2 (parMoveOne e (parAlloc e x)) p 0 x x h
  moveWith p a x h := each2 (parMoveOne e a) p 0 x x h
  -- phmap.hpp:3530-3542
  copyAssign p x y h := (each2 (fun p x y h => (hashCopyAssign e p x y h).map fun r => (r.1, y, r.2)) p 0 x y h).map
    fun r => (r.1, r.2.2)
  moveAssign p x y h := each2 (hashMoveAssign e) p 0 x y h
  -- phmap.hpp:4127-4139
  swap x y := ((x.zip y).map fun q => (Alloc.swap e q.1 q.2).1, (x.zip y).map fun q => (Alloc.swap e q.1 q.2).2)
  -- phmap.hpp:3544
  destroy x h := x.foldlM (fun h c => Alloc.destroy c h) h

/-- `btree_set`, `btree_map` and those with duplicates. They have no constructors that copy or move a container and
take an allocator (btree.hpp:3146-3155), so no program contains these calls. -/
def btreeLib (e : Env A α) : Lib A α (Cont A α) where
  get x := (x.alloc, x.vals)
  held := Cont.held
  make p a h := some (Alloc.make (p 0) a h)
  use p := Alloc.use (p 0)
  -- btree.hpp:2356-2359
  copy p x h := some (Alloc.copyWith (p 0) x.alloc x h)
  copyWith _ _ _ _ := none
  move _ x h := some ((Alloc.move x).1, (Alloc.move x).2, h)
  moveWith _ _ _ _ := none
  copyAssign p := btreeCopyAssign e (p 0)
  moveAssign p := btreeMoveAssign e (p 0)
  swap := Alloc.swap e
  destroy := Alloc.destroy

/-- `gtl::vector`. -/
def vecLib (e : Env A α) : Lib A α (Cont A α) where
  get x := (x.alloc, x.vals)
  held := Cont.held
  make p a h := some (Alloc.make (p 0) a h)
  use p := Alloc.use (p 0)
  -- vector.hpp:696-699
  copy p x h := some (Alloc.copyWith (p 0) (e.select x.alloc) x h)
  copyWith p a x h := some (Alloc.copyWith (p 0) a x h)
  move _ x h := some ((Alloc.move x).1, (Alloc.move x).2, h)
  moveWith p a x h := some (Alloc.moveWith e (p 0) a x h)
  copyAssign p := vecCopyAssign e (p 0)
  moveAssign p := vecMoveAssign e (p 0)
  swap := Alloc.swap e
  destroy := Alloc.destroy

variable {S : Type}

/-- One step of a program. A call on a container that is not there is undefined. -/
def exec (lib : Lib A α S) (cs : List S) (h : Heap A) (p : Nat → Pick α) : Op A → Option (List S × Heap A)
  | .make a => (lib.make p a h).map fun r => (cs ++ [r.1], r.2)
  | .use i => cs[i]?.bind fun s => (lib.use p s h).map fun r => (cs.set i r.1, r.2)
  | .copy i => cs[i]?.bind fun s => (lib.copy p s h).map fun r => (cs ++ [r.1], r.2)
  | .copyWith i a => cs[i]?.bind fun s => (lib.copyWith p a s h).map fun r => (cs ++ [r.1], r.2)
  | .move i => cs[i]?.bind fun s => (lib.move p s h).map fun r => (cs.set i r.2.1 ++ [r.1], r.2.2)
  | .moveWith i a => cs[i]?.bind fun s => (lib.moveWith p a s h).map fun r => (cs.set i r.2.1 ++ [r.1], r.2.2)
  | .copyAssign i j => cs[i]?.bind fun x => cs[j]?.bind fun y =>
      (lib.copyAssign p x y h).map fun r => (cs.set i r.1, r.2)
  | .moveAssign i j => cs[i]?.bind fun x => cs[j]?.bind fun y =>
      (lib.moveAssign p x y h).map fun r => ((cs.set i r.1).set j r.2.1, r.2.2)
  | .swap i j => cs[i]?.bind fun x => cs[j]?.map fun y =>
      ((cs.set i (lib.swap x y).1).set j (lib.swap x y).2, h)
  | .destroy i => cs[i]?.bind fun s => (lib.destroy s h).map fun h => (cs.eraseIdx i, h)

/-- A program. -/
def execAll (lib : Lib A α S) : List S → Heap A → List (Op A × (Nat → Pick α)) → Option (List S × Heap A)
  | cs, h, [] => some (cs, h)
  | cs, h, (op, p) :: ops => (exec lib cs h p op).bind fun r => execAll lib r.1 r.2 ops

end Gtl.Alloc
