import Verif.Btree.Cost
import Verif.Spec.SortedSeqThrow
/-
A comparison of keys that throws. The comparisons of a call are counted by the functions of
`Verif/Btree/Cost.lean`; here a call is given the number of comparisons after which the next one throws,
and what an exception leaves.
-/
namespace Gtl.Btree
open Gtl.Spec.SortedSeq
variable {α κ σ β γ : Type}

/-- How a call ends: with a result, and how many comparisons may still be made; or with an exception, which
leaves `s`. -/
inductive Ending (σ β : Type) where
  | done (b : β) (k : Nat)
  | threw (s : σ)

/-- Code that may be undefined (`none`) or end with an exception of the comparison. The argument is the
number of comparisons before the one that throws. -/
def Throwing (σ β : Type) : Type := Nat → Option (Ending σ β)

instance : Monad (Throwing σ) where
  pure b := fun k => some (.done b k)
  bind m f := fun k =>
    match m k with
    | none => none
    | some (.threw s) => some (.threw s)
    | some (.done b k) => f b k

/-- Code that compares keys and changes nothing, in the state `s`. -/
def reading (s : σ) (m : Cnt β) : Throwing σ β := fun k =>
  match count m with
  | none => none
  | some (b, n) => some (if n ≤ k then .done b (k - n) else .threw s)

/-- Code that does not compare. -/
def plain (o : Option β) : Throwing σ β := fun k => o.map (.done · k)

section
-- `st`: all that the call can reach, when the container is as given
variable (st : Tree α → σ) (c : Cfg α κ)

/-- btree::insert_unique (btree.hpp:2363-2385). -/
def insertUniqueT (t : Tree α) (k : κ) (a : Arg α) : Throwing σ ((It × Bool) × Tree α) := do
  let r ← reading (st (firstRoot t)) (internalLocateW c (firstRoot t) k)
  let o ← reading (st (firstRoot t)) (locateFoundW c (firstRoot t) k r.1 r.2)
  match o with
  | some it => pure ((it, false), firstRoot t)
  | none => do
    let x ← plain (internalEmplace c (firstRoot t) r.1 a)
    pure ((x.1, true), x.2)

/-- btree::insert_hint_unique (btree.hpp:2389-2413). -/
def insertHintUniqueT (t : Tree α) (pos : It) (k : κ) (a : Arg α) : Throwing σ ((It × Bool) × Tree α) :=
  if t.size = 0 then insertUniqueT st c t k a
  else do
    let e ← plain t.end
    let b ← plain t.begin
    let q ← reading (st t) (stopOrAtW t.heap pos e (fun v => c.lt k (c.key v)))
    if q then do
      let q ← reading (st t) (stopOrBeforeW t.heap pos b (fun v => c.lt (c.key v) k))
      if q then do
        let x ← plain (internalEmplace c t pos a)
        pure ((x.1, true), x.2)
      else insertUniqueT st c t k a
    else do
      let v ← plain (deref t.heap pos)
      reading (st t) tick
      if c.lt (c.key v) k then do
        let next ← plain (increment t.heap pos)
        let q ← reading (st t) (stopOrAtW t.heap next e (fun v => c.lt k (c.key v)))
        if q then do
          let x ← plain (internalEmplace c t next a)
          pure ((x.1, true), x.2)
        else insertUniqueT st c t k a
      else pure ((pos, false), t)

/-- btree::insert_iterator_unique (btree.hpp:2415-2421). -/
def insertAllUniqueT (t : Tree α) : List α → Throwing σ (Tree α)
  | [] => pure t
  | v :: vs => do
    let e ← plain t.end
    let x ← insertHintUniqueT st c t e (c.key v) (.val v)
    insertAllUniqueT x.2 vs

/-- btree::insert_multi (btree.hpp:2425-2435). -/
def insertMultiT (t : Tree α) (k : κ) (a : Arg α) : Throwing σ (It × Tree α) := do
  let it ← reading (st (firstRoot t)) (internalUpperBoundW c (firstRoot t) k)
  let it ← plain (internalEnd (firstRoot t) it)
  plain (internalEmplace c (firstRoot t) it a)

/-- btree::insert_hint_multi (btree.hpp:2439-2460). -/
def insertHintMultiT (t : Tree α) (pos : It) (k : κ) (a : Arg α) : Throwing σ (It × Tree α) :=
  if t.size = 0 then insertMultiT st c t k a
  else do
    let e ← plain t.end
    let b ← plain t.begin
    let q ← reading (st t) (stopOrAtW t.heap pos e (fun v => !(c.lt (c.key v) k)))
    if q then do
      let q ← reading (st t) (stopOrBeforeW t.heap pos b (fun v => !(c.lt k (c.key v))))
      if q then plain (internalEmplace c t pos a)
      else insertMultiT st c t k a
    else do
      let next ← plain (increment t.heap pos)
      let q ← reading (st t) (stopOrAtW t.heap next e (fun v => !(c.lt (c.key v) k)))
      if q then plain (internalEmplace c t next a)
      else insertMultiT st c t k a

/-- btree::insert_iterator_multi (btree.hpp:2462-2468). -/
def insertAllMultiT (t : Tree α) : List α → Throwing σ (Tree α)
  | [] => pure t
  | v :: vs => do
    let e ← plain t.end
    let x ← insertHintMultiT st c t e (c.key v) (.val v)
    insertAllMultiT x.2 vs

/-- btree::erase_unique (btree.hpp:2676-2686). -/
def eraseUniqueT (t : Tree α) (k : κ) : Throwing σ (Nat × Tree α) := do
  let o ← reading (st t) (internalFindW c t k)
  match o with
  | none => pure (0, t)
  | some it => do
    let x ← plain (eraseIt c t it)
    pure (1, x.2)

/-- btree::erase_multi (btree.hpp:2689-2700). -/
def eraseMultiT (t : Tree α) (k : κ) : Throwing σ (Nat × Tree α) := do
  let o ← reading (st t) (internalLowerBoundW c t k)
  match o with
  | none => pure (0, t)
  | some b => do
    let u ← reading (st t) (internalUpperBoundW c t k)
    let e ← plain (internalEnd t u)
    let x ← plain (eraseRange c t b e)
    pure (x.1.1, x.2)

/-- extract(key) (btree.hpp:3404-3408, 3630-3634). -/
def extractKeyT (t : Tree α) (k : κ) : Throwing σ (Res α × Tree α) := do
  let it ← reading (st t) (t.findW c k)
  plain (do
    let e ← t.end
    if it = e then some (.done, t)
    else do
      let (v, t) ← t.extract c it
      some (.val v, t))

/-- The calls on one container (btree.hpp:3114-3668). Those that only look (`execW`) change nothing; the
rest compare nothing. -/
def execT (t : Tree α) : Op α κ → Throwing σ (Res α × Tree α)
  | .insert v =>
    if c.multi then do
      let x ← insertMultiT st c t (c.key v) (.val v)
      let i ← plain (x.2.index x.1)
      pure (.pos i, x.2)
    else do
      let x ← insertUniqueT st c t (c.key v) (.val v)
      let i ← plain (x.2.index x.1.1)
      pure (.posNew i x.1.2, x.2)
  | .insertHint i v => do
    let hint ← plain (t.iterAt i)
    if c.multi then do
      let x ← insertHintMultiT st c t hint (c.key v) (.val v)
      let i ← plain (x.2.index x.1)
      pure (.pos i, x.2)
    else do
      let x ← insertHintUniqueT st c t hint (c.key v) (.val v)
      let i ← plain (x.2.index x.1.1)
      pure (.pos i, x.2)
  | .insertAll vs => do
    let t ← (if c.multi then insertAllMultiT st c t vs else insertAllUniqueT st c t vs)
    pure (.done, t)
  | .eraseKey k => do
    let x ← (if c.multi then eraseMultiT st c t k else eraseUniqueT st c t k)
    pure (.num x.1, x.2)
  | .extractKey k => extractKeyT st c t k
  | .find k => reading (st t) (execW c t (.find k))
  | .contains k => reading (st t) (execW c t (.contains k))
  | .count k => reading (st t) (execW c t (.count k))
  | .lowerBound k => reading (st t) (execW c t (.lowerBound k))
  | .upperBound k => reading (st t) (execW c t (.upperBound k))
  | .equalRange k => reading (st t) (execW c t (.equalRange k))
  | op => plain (exec c t op)

/-- btree::copy_or_move_values_in_order (btree.hpp:2302-2321) into the empty tree `t`. -/
def copyIntoT (t x : Tree α) : Throwing σ (Tree α) := do
  let vs ← plain x.toList
  match vs with
  | [] => pure t
  | v :: vs => do
    let r ← insertMultiT st c t (c.key v) (.val v)
    plain (appendAll c r.2 vs)

end

/-- The loop of btree_set_container::merge (btree.hpp:3418-3426): the comparisons of an insertion come before
the element is moved. -/
def mergeLoopT (st : Tree α → Tree α → σ) (c : Cfg α κ) : Nat → Tree α → Tree α → It → Throwing σ (Tree α × Tree α)
  | 0, t, s, it => do
    let e ← plain s.end
    if it = e then pure (t, s) else plain none
  | f + 1, t, s, it => do
    let e ← plain s.end
    if it = e then pure (t, s)
    else do
      let v ← plain (deref s.heap it)
      let x ← insertUniqueT (fun t => st t s) c t (c.key v) (.val v)
      if x.1.2 then do
        let y ← plain (eraseIt c s it)
        mergeLoopT st c f x.2 y.2 y.1
      else do
        let it ← plain (increment s.heap it)
        mergeLoopT st c f x.2 s it

/-- The insertion of btree_multiset_container::merge (btree.hpp:3646-3647, 2462-2468): each element is moved
from where it is in `s`, which leaves `moved v` there. -/
def mergeMultiLoopT (st : Tree α → Tree α → σ) (c : Cfg α κ) (moved : α → α) :
    Nat → Tree α → Tree α → It → Throwing σ (Tree α × Tree α)
  | 0, t, s, it => do
    let e ← plain s.end
    if it = e then pure (t, s) else plain none
  | f + 1, t, s, it => do
    let e ← plain s.end
    if it = e then pure (t, s)
    else do
      let v ← plain (deref s.heap it)
      let te ← plain t.end
      let x ← insertHintMultiT (fun t => st t s) c t te (c.key v) (.val v)
      let s ← plain (s.write it (moved v))
      let it ← plain (increment s.heap it)
      mergeMultiLoopT st c moved f x.2 s it

/-- merge (btree.hpp:3418-3426, 3646-3649). -/
def mergeT (st : Tree α → Tree α → σ) (c : Cfg α κ) (moved : α → α) (t s : Tree α) : Throwing σ (Tree α × Tree α) := do
  let b ← plain s.begin
  if c.multi then do
    let x ← mergeMultiLoopT st c moved s.size t s b
    let s ← plain x.2.clear
    pure (x.1, s)
  else mergeLoopT st c s.size t s b

/-- The calls on several containers (`wexec`). A copy that ends with an exception is destroyed. -/
def wexecT (c : Cfg α κ) (eq less : α → α → Bool) (moved : α → α) (w : List (Tree α)) :
    WOp α κ → Throwing (List (Tree α)) (Res α × List (Tree α))
  | .on i op => do
    let t ← plain w[i]?
    let x ← execT (fun t => w.set i t) c t op
    pure (x.1, w.set i x.2)
  | .copy i => do
    let t ← plain w[i]?
    let x ← copyIntoT (fun _ => w) c Tree.empty t
    pure (.num w.length, w ++ [x])
  | .assign i j =>
    if i = j then pure (.done, w)
    else do
      let t ← plain w[i]?
      let x ← plain w[j]?
      let t ← plain t.clear
      let t ← copyIntoT (fun t => w.set i t) c t x
      pure (.done, w.set i t)
  | .merge i j => do
    plain (check (i != j))
    let t ← plain w[i]?
    let x ← plain w[j]?
    let y ← mergeT (fun t x => (w.set i t).set j x) c moved t x
    pure (.done, (w.set i y.1).set j y.2)
  | op => plain (wexec c eq less w op)

/-- A history: calls on several containers, each with the number of comparisons before the one that throws. -/
def wexecAllT (c : Cfg α κ) (eq less : α → α → Bool) (moved : α → α) (w : List (Tree α)) :
    List (WOp α κ × Nat) → Option (List (Outcome α) × List (Tree α))
  | [] => some ([], w)
  | (op, k) :: ops => do
    match ← wexecT c eq less moved w op k with
    | .done (r, w) _ => do
      let (rs, w) ← wexecAllT c eq less moved w ops
      some (.got r :: rs, w)
    | .threw w => do
      let (rs, w) ← wexecAllT c eq less moved w ops
      some (.threw :: rs, w)

end Gtl.Btree
