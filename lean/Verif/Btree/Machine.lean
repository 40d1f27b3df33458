import Verif.Btree.Model
import Verif.Spec.SortedSeq
/-
The calls of a program that uses one container. Iterators come from
`std::next(begin(), i)` and are looked at by their distance from begin().
-/
namespace Gtl.Btree
open Gtl.Spec.SortedSeq
variable {α κ : Type}

/-- `std::distance(begin(), it)`. -/
def Tree.index (t : Tree α) (it : It) : Option Nat := do
  let b ← t.begin
  distance t.heap t.size b it

/-- The calls of btree_set, btree_map (`multi = false`), btree_multiset and
btree_multimap (btree.hpp:3114-3668): the dispatch from the containers to the
tree. `insert` also stands for emplace and try_emplace, which build the value
first or give the tree the key and what to build the value from. -/
def exec (c : Cfg α κ) (t : Tree α) : Op α κ → Option (Res α × Tree α)
  | .insert v =>
    if c.multi then do
      let (it, t) ← insertMulti c t (c.key v) (.val v)
      some (.pos (← t.index it), t)
    else do
      let ((it, b), t) ← insertUnique c t (c.key v) (.val v)
      some (.posNew (← t.index it) b, t)
  | .insertHint i v => do
    let hint ← t.iterAt i
    if c.multi then do
      let (it, t) ← insertHintMulti c t hint (c.key v) (.val v)
      some (.pos (← t.index it), t)
    else do
      let ((it, _), t) ← insertHintUnique c t hint (c.key v) (.val v)
      some (.pos (← t.index it), t)
  | .insertAll vs => do
    let t ← if c.multi then insertAllMulti c t vs else insertAllUnique c t vs
    some (.done, t)
  | .eraseAt i => do
    let it ← t.iterAt i
    let (it, t) ← eraseIt c t it
    some (.pos (← t.index it), t)
  | .eraseRange i j => do
    let b ← t.iterAt i
    let e ← t.iterAt j
    let ((_, it), t) ← eraseRange c t b e
    some (.pos (← t.index it), t)
  | .eraseKey k => do
    let (n, t) ← if c.multi then eraseMulti c t k else eraseUnique c t k
    some (.num n, t)
  | .extractAt i => do
    let it ← t.iterAt i
    let (v, t) ← t.extract c it
    some (.val v, t)
  | .extractKey k => do
    let (v, t) ← t.extractKey c k
    match v with
    | some v => some (.val v, t)
    | none => some (.done, t)
  | .eraseIf p => do
    let t ← t.eraseIf c p
    some (.done, t)
  | .find k => do
    let it ← t.find c k
    some (.pos (← t.index it), t)
  | .contains k => do
    let b ← t.contains c k
    some (.bool b, t)
  | .count k => do
    let n ← if c.multi then t.countMulti c k else t.countUnique c k
    some (.num n, t)
  | .lowerBound k => do
    let it ← t.lowerBound c k
    some (.pos (← t.index it), t)
  | .upperBound k => do
    let it ← t.upperBound c k
    some (.pos (← t.index it), t)
  | .equalRange k => do
    let b ← t.lowerBound c k
    let e ← t.upperBound c k
    some (.range (← t.index b) (← t.index e), t)
  | .get i => do
    let it ← t.iterAt i
    let v ← deref t.heap it
    some (.val v, t)
  | .put i v => do
    let it ← t.iterAt i
    let t ← t.write it v
    some (.done, t)
  | .size => some (.num t.size, t)
  | .values => do
    let vs ← t.toList
    some (.vals vs, t)
  | .reversed => do
    let vs ← t.toListBack
    some (.vals vs, t)
  | .clear => do
    let t ← t.clear
    some (.done, t)

/-- A sequence of calls. -/
def execAll (c : Cfg α κ) (t : Tree α) : List (Op α κ) → Option (List (Res α) × Tree α)
  | [] => some ([], t)
  | op :: ops => do
    let (r, t) ← exec c t op
    let (rs, t) ← execAll c t ops
    some (r :: rs, t)

/-- The calls on several containers (btree.hpp:3146-3155, 3240, 3253-3261,
3418-3426, 3646-3649; swap, btree.hpp:2713-2729, exchanges the members). -/
def wexec (c : Cfg α κ) (eq less : α → α → Bool) (w : List (Tree α)) : WOp α κ → Option (Res α × List (Tree α))
  | .on i op => do
    let t ← w[i]?
    let (r, t) ← exec c t op
    some (r, w.set i t)
  | .make => some (.num w.length, w ++ [Tree.empty])
  | .copy i => do
    let t ← w[i]?
    let x ← t.copy c
    some (.num w.length, w ++ [x])
  | .assign i j =>
    if i = j then some (.done, w)
    else do
      let t ← w[i]?
      let x ← w[j]?
      let t ← t.assign c x
      some (.done, w.set i t)
  | .move i j =>
    if i = j then some (.done, w)
    else do
      let t ← w[i]?
      let x ← w[j]?
      let (t, x) ← t.moveAssign x
      some (.done, (w.set i t).set j x)
  | .swap i j => do
    let t ← w[i]?
    let x ← w[j]?
    some (.done, (w.set i x).set j t)
  | .merge i j => do
    check (i != j)
    let t ← w[i]?
    let x ← w[j]?
    let (t, x) ← if c.multi then mergeMulti c t x else mergeUnique c c t x
    some (.done, (w.set i t).set j x)
  | .eq i j => do
    let t ← w[i]?
    let x ← w[j]?
    let b ← t.beq eq x
    some (.bool b, w)
  | .less i j => do
    let t ← w[i]?
    let x ← w[j]?
    let b ← t.less less x
    some (.bool b, w)

/-- A sequence of calls on several containers. -/
def wexecAll (c : Cfg α κ) (eq less : α → α → Bool) (w : List (Tree α)) :
    List (WOp α κ) → Option (List (Res α) × List (Tree α))
  | [] => some ([], w)
  | op :: ops => do
    let (r, w) ← wexec c eq less w op
    let (rs, w) ← wexecAll c eq less w ops
    some (r :: rs, w)

end Gtl.Btree
