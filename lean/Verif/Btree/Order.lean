import Verif.Btree.CmpThrow
import Verif.Spec.Orders
/-
B-tree containers with comparison objects that have a state. The comparison is a member of the tree, next to the allocator
and the root (btree.hpp:1933). Here a container is its comparison object and the tree of `Verif/Btree/Model.lean`, whose code
compares with `Cfg.lt`.
-/
namespace Gtl.Btree
open Gtl.Spec.SortedSeq
variable {S α κ : Type}

/-- The type of comparison objects: how an object in a state compares, `none` if calling it is undefined (one that holds a null
pointer), and the state after it was moved from. Copies have the state of the original; copying and moving them throws
nothing, which btree.hpp:2325-2326 asks of copying. -/
structure Orders (S κ : Type) where
  call : S → Option (κ → κ → Bool)
  moved : S → S

/-- Whether an object can be called. -/
def Orders.can (F : Orders S κ) (s : S) : Bool := (F.call s).isSome

/-- How an object compares, if it can be called. -/
def Orders.lt (F : Orders S κ) (s : S) : κ → κ → Bool := (F.call s).getD fun _ _ => false

/-- A container: key_comp() and the tree (btree.hpp:1676, 1933-1939). -/
structure CBox (S α : Type) where
  comp : S
  tree : Tree α

section
variable (c : Cfg α κ) (F : Orders S κ)

/-- The template parameters, with the comparison object in state `s`. -/
def Cfg.with (s : S) : Cfg α κ := { c with lt := F.lt s }

/-- Code that must not compare, as the comparison cannot be called: `Throwing` counts the comparisons, and the first one is
undefined behaviour. -/
def noCompare {β : Type} (m : Throwing Unit β) : Option β :=
  match m 0 with
  | some (.done b _) => some b
  | _ => none

/-- The calls on one container (btree.hpp:3114-3668). -/
def CBox.exec (b : CBox S α) (op : Op α κ) : Option (Res α × CBox S α) := do
  let (r, t) ← if F.can b.comp then Btree.exec (c.with F b.comp) b.tree op
    else noCompare (execT (fun _ => ()) (c.with F b.comp) b.tree op)
  some (r, { b with tree := t })

/-- Copy constructor (btree.hpp:2356-2360): the comparison is copied; no keys are compared (`copyIntoT_tri`). -/
def CBox.copy (x : CBox S α) : Option (CBox S α) := do
  let t ← x.tree.copy (c.with F x.comp)
  some { comp := x.comp, tree := t }

/-- Move constructor (btree.hpp:1500-1505): `root_(std::move(x.root_))` moves the comparison as well. Returns the new container
and the source. -/
def CBox.take (x : CBox S α) : CBox S α × CBox S α := (x, { comp := F.moved x.comp, tree := Tree.empty })

/-- Copy assignment of two different containers (btree.hpp:2471-2483): clear, then the comparison, then the elements. -/
def CBox.assign (b x : CBox S α) : Option (CBox S α) := do
  let t ← b.tree.assign (c.with F x.comp) x.tree
  some { comp := x.comp, tree := t }

/-- Move assignment of two different containers with equal allocators (btree.hpp:2486-2502): clear, then everything is swapped,
also the comparisons (2499). -/
def CBox.moveAssign (b x : CBox S α) : Option (CBox S α × CBox S α) := do
  let (t, u) ← b.tree.moveAssign x.tree
  some ({ comp := x.comp, tree := t }, { comp := b.comp, tree := u })

/-- merge (btree.hpp:3418-3426, 3646-3649): each element is inserted with the comparison of the destination. -/
def CBox.merge (b x : CBox S α) : Option (CBox S α × CBox S α) := do
  let (t, u) ←
    if F.can b.comp then
      if c.multi then mergeMulti (c.with F b.comp) b.tree x.tree
      else mergeUnique (c.with F b.comp) (c.with F x.comp) b.tree x.tree
    else noCompare (mergeT (fun _ _ => ()) (c.with F b.comp) id b.tree x.tree)
  some ({ b with tree := t }, { x with tree := u })

/-- The calls on several containers; swap (btree.hpp:2713-2729) exchanges the comparisons (2719, 2724). -/
def cexec (eq less : α → α → Bool) (w : List (CBox S α)) : COp S α κ → Option (CRes S α × List (CBox S α))
  | .on i op => do
    let b ← w[i]?
    let (r, b) ← b.exec c F op
    some (.got r, w.set i b)
  | .make s => some (.got (.num w.length), w ++ [{ comp := s, tree := Tree.empty }])
  | .copy i => do
    let b ← w[i]?
    let x ← b.copy c F
    some (.got (.num w.length), w ++ [x])
  | .take i => do
    let b ← w[i]?
    let (x, b) := b.take F
    some (.got (.num w.length), w.set i b ++ [x])
  | .assign i j =>
    if i = j then some (.got .done, w)
    else do
      let b ← w[i]?
      let x ← w[j]?
      let b ← b.assign c F x
      some (.got .done, w.set i b)
  | .move i j =>
    if i = j then some (.got .done, w)
    else do
      let b ← w[i]?
      let x ← w[j]?
      let (b, x) ← b.moveAssign x
      some (.got .done, (w.set i b).set j x)
  | .swap i j => do
    let b ← w[i]?
    let x ← w[j]?
    some (.got .done, (w.set i x).set j b)
  | .merge i j => do
    check (i != j)
    let b ← w[i]?
    let x ← w[j]?
    let (b, x) ← b.merge c F x
    some (.got .done, (w.set i b).set j x)
  | .eq i j => do
    let b ← w[i]?
    let x ← w[j]?
    let r ← b.tree.beq eq x.tree
    some (.got (.bool r), w)
  | .less i j => do
    let b ← w[i]?
    let x ← w[j]?
    let r ← b.tree.less less x.tree
    some (.got (.bool r), w)
  | .comp i => do
    let b ← w[i]?
    some (.comp b.comp, w)

/-- A sequence of calls on several containers. -/
def cexecAll (eq less : α → α → Bool) (w : List (CBox S α)) : List (COp S α κ) → Option (List (CRes S α) × List (CBox S α))
  | [] => some ([], w)
  | op :: ops => do
    let (r, w) ← cexec c F eq less w op
    let (rs, w) ← cexecAll eq less w ops
    some (r :: rs, w)

end
end Gtl.Btree
