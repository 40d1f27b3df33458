import Verif.Btree.Machine
/-
The calls of the user's comparison. The functions that compare keys are given here once more with a
counter; that they are otherwise the same is proved in `Verif/Btree/CostSame.lean`.
-/
namespace Gtl.Btree
open Gtl.Spec.SortedSeq
variable {α κ : Type}

/-- Code that may be undefined (`none`) and counts comparisons. -/
abbrev Cnt (β : Type) := StateT Nat Option β

/-- One call of the comparison, of `compare_keys` (btree.hpp:1676) or of the
three-way comparison of keys (btree.hpp:506-510, 1069-1153). -/
def tick : Cnt Unit := fun n => some ((), n + 1)

/-- Code that does not compare. -/
def free {β : Type} (o : Option β) : Cnt β := fun n => o.map (·, n)

/-- `m` from zero: the result and the number of comparisons. -/
def count {β : Type} (m : Cnt β) : Option (β × Nat) := m 0

/-- linear_search_impl for plain comparisons (btree.hpp:1050-1063). -/
def linearPlainW (p : α → Bool) : List α → Cnt Nat
  | [] => pure 0
  | v :: vs => do
    tick
    if p v then do
      let r ← linearPlainW p vs
      pure (r + 1)
    else pure 0

/-- linear_search_impl for compare-to (btree.hpp:1069-1086). -/
def linearToW (p : α → Ordering) : List α → Cnt SR
  | [] => pure ⟨0, false⟩
  | v :: vs => do
    tick
    match p v with
    | .eq => pure ⟨0, true⟩
    | .gt => pure ⟨0, false⟩
    | .lt => do
      let r ← linearToW p vs
      pure ⟨r.value + 1, r.eq⟩

/-- binary_search_impl for plain comparisons (btree.hpp:1092-1108). -/
def binaryPlainW (p : α → Bool) (vs : List α) : Nat → Nat → Nat → Cnt Nat
  | 0, s, e => if s = e then pure s else free none
  | f + 1, s, e =>
    if s = e then pure s
    else do
      let v ← free vs[(s + e) / 2]?
      tick
      if p v then binaryPlainW p vs f ((s + e) / 2 + 1) e else binaryPlainW p vs f s ((s + e) / 2)

/-- binary_search_impl for compare-to in a multi-container (btree.hpp:1119-1139). -/
def binaryToMultiW (p : α → Ordering) (vs : List α) : Nat → Nat → Nat → Bool → Cnt SR
  | 0, s, e, m => if s = e then pure ⟨s, m⟩ else free none
  | f + 1, s, e, m =>
    if s = e then pure ⟨s, m⟩
    else do
      let v ← free vs[(s + e) / 2]?
      tick
      match p v with
      | .lt => binaryToMultiW p vs f ((s + e) / 2 + 1) e m
      | .eq => binaryToMultiW p vs f s ((s + e) / 2) true
      | .gt => binaryToMultiW p vs f s ((s + e) / 2) m

/-- binary_search_impl for compare-to without duplicates (btree.hpp:1140-1153). -/
def binaryToUniqueW (p : α → Ordering) (vs : List α) : Nat → Nat → Nat → Cnt SR
  | 0, s, e => if s = e then pure ⟨s, false⟩ else free none
  | f + 1, s, e =>
    if s = e then pure ⟨s, false⟩
    else do
      let v ← free vs[(s + e) / 2]?
      tick
      match p v with
      | .lt => binaryToUniqueW p vs f ((s + e) / 2 + 1) e
      | .gt => binaryToUniqueW p vs f s ((s + e) / 2)
      | .eq => pure ⟨(s + e) / 2, true⟩

/-- btree_node::lower_bound (btree.hpp:1018-1021). -/
def lowerNodeW (c : Cfg α κ) (n : Node α) (k : κ) : Cnt SR :=
  if c.cmpTo then
    if c.linear then linearToW (fun v => c.cmp3 (c.key v) k) n.vals
    else if c.multi then binaryToMultiW (fun v => c.cmp3 (c.key v) k) n.vals n.count 0 n.count false
    else binaryToUniqueW (fun v => c.cmp3 (c.key v) k) n.vals n.count 0 n.count
  else do
    let i ← if c.linear then linearPlainW (fun v => c.lt (c.key v) k) n.vals
            else binaryPlainW (fun v => c.lt (c.key v) k) n.vals n.count 0 n.count
    pure ⟨i, false⟩

/-- btree_node::upper_bound (btree.hpp:1024-1028). -/
def upperNodeW (c : Cfg α κ) (n : Node α) (k : κ) : Cnt Nat :=
  if c.linear then linearPlainW (fun v => !(c.lt k (c.key v))) n.vals
  else binaryPlainW (fun v => !(c.lt k (c.key v))) n.vals n.count 0 n.count

/-- internal_locate_impl for plain comparisons (btree.hpp:2993-3008, 3031-3038). -/
def locatePlainW (c : Cfg α κ) (h : Heap α) (k : κ) : Nat → Nat → Cnt It
  | 0, _ => free none
  | f + 1, id => do
    let n ← free (h.get id)
    let r ← lowerNodeW c n k
    if n.leaf then pure ⟨id, r.value⟩
    else do
      let kid ← free n.kids[r.value]?
      locatePlainW c h k f kid

/-- internal_locate_impl for compare-to (btree.hpp:3010-3027). -/
def locateToW (c : Cfg α κ) (h : Heap α) (k : κ) : Nat → Nat → Cnt (It × Bool)
  | 0, _ => free none
  | f + 1, id => do
    let n ← free (h.get id)
    let r ← lowerNodeW c n k
    if r.eq then pure (⟨id, r.value⟩, true)
    else if n.leaf then pure (⟨id, r.value⟩, false)
    else do
      let kid ← free n.kids[r.value]?
      locateToW c h k f kid

/-- The loop of internal_upper_bound (btree.hpp:3045-3052). -/
def locateUpperW (c : Cfg α κ) (h : Heap α) (k : κ) : Nat → Nat → Cnt It
  | 0, _ => free none
  | f + 1, id => do
    let n ← free (h.get id)
    let r ← upperNodeW c n k
    if n.leaf then pure ⟨id, r⟩
    else do
      let kid ← free n.kids[r]?
      locateUpperW c h k f kid

/-- btree::internal_locate (btree.hpp:2985-2988). -/
def internalLocateW (c : Cfg α κ) (t : Tree α) (k : κ) : Cnt (It × Bool) :=
  if c.cmpTo then locateToW c t.heap k (t.heap.length + 1) t.root
  else do
    let it ← locatePlainW c t.heap k (t.heap.length + 1) t.root
    pure (it, false)

/-- btree::internal_lower_bound (btree.hpp:3030-3041). -/
def internalLowerBoundW (c : Cfg α κ) (t : Tree α) (k : κ) : Cnt (Option It) := do
  let it ← locatePlainW c t.heap k (t.heap.length + 1) t.root
  free (internalLast t.heap (t.heap.length + 1) it)

/-- btree::internal_upper_bound (btree.hpp:3044-3055). -/
def internalUpperBoundW (c : Cfg α κ) (t : Tree α) (k : κ) : Cnt (Option It) := do
  let it ← locateUpperW c t.heap k (t.heap.length + 1) t.root
  free (internalLast t.heap (t.heap.length + 1) it)

/-- The comparison that tells whether the key was found (btree.hpp:2371-2380,
3061-3068). -/
def locateFoundW (c : Cfg α κ) (t : Tree α) (k : κ) (it : It) (eq : Bool) : Cnt (Option It) :=
  if c.cmpTo then pure (if eq then some it else none)
  else do
    match ← free (internalLast t.heap (t.heap.length + 1) it) with
    | none => pure none
    | some last => do
      let v ← free (deref t.heap last)
      tick
      pure (if !(c.lt k (c.key v)) then some last else none)

/-- btree::internal_find (btree.hpp:3058-3071). -/
def internalFindW (c : Cfg α κ) (t : Tree α) (k : κ) : Cnt (Option It) := do
  let r ← internalLocateW c t k
  locateFoundW c t k r.1 r.2

/-- btree::find (btree.hpp:1641-1644). -/
def Tree.findW (c : Cfg α κ) (t : Tree α) (k : κ) : Cnt It := do
  let it ← internalFindW c t k
  free (internalEnd t it)

/-- btree::lower_bound (btree.hpp:1531-1534). -/
def Tree.lowerBoundW (c : Cfg α κ) (t : Tree α) (k : κ) : Cnt It := do
  let it ← internalLowerBoundW c t k
  free (internalEnd t it)

/-- btree::upper_bound (btree.hpp:1543-1546). -/
def Tree.upperBoundW (c : Cfg α κ) (t : Tree α) (k : κ) : Cnt It := do
  let it ← internalUpperBoundW c t k
  free (internalEnd t it)

/-- btree::insert_unique (btree.hpp:2363-2385). -/
def insertUniqueW (c : Cfg α κ) (t : Tree α) (k : κ) (a : Arg α) : Cnt ((It × Bool) × Tree α) := do
  let r ← internalLocateW c (firstRoot t) k
  match ← locateFoundW c (firstRoot t) k r.1 r.2 with
  | some it => pure ((it, false), firstRoot t)
  | none => do
    let x ← free (internalEmplace c (firstRoot t) r.1 a)
    pure ((x.1, true), x.2)

/-- `it == stop || p(*it)` with a comparison in `p`. -/
def stopOrAtW (h : Heap α) (it stop : It) (p : α → Bool) : Cnt Bool :=
  if it = stop then pure true
  else do
    let v ← free (deref h it)
    tick
    pure (p v)

/-- `it == stop || p(*std::prev(it))` with a comparison in `p`. -/
def stopOrBeforeW (h : Heap α) (it stop : It) (p : α → Bool) : Cnt Bool :=
  if it = stop then pure true
  else do
    let prev ← free (decrement h it)
    let v ← free (deref h prev)
    tick
    pure (p v)

/-- btree::insert_hint_unique (btree.hpp:2389-2413). -/
def insertHintUniqueW (c : Cfg α κ) (t : Tree α) (pos : It) (k : κ) (a : Arg α) : Cnt ((It × Bool) × Tree α) :=
  if t.size = 0 then insertUniqueW c t k a
  else do
    let e ← free t.end
    let b ← free t.begin
    if ← stopOrAtW t.heap pos e (fun v => c.lt k (c.key v)) then do
      if ← stopOrBeforeW t.heap pos b (fun v => c.lt (c.key v) k) then do
        let x ← free (internalEmplace c t pos a)
        pure ((x.1, true), x.2)
      else insertUniqueW c t k a
    else do
      let v ← free (deref t.heap pos)
      tick
      if c.lt (c.key v) k then do
        let next ← free (increment t.heap pos)
        if ← stopOrAtW t.heap next e (fun v => c.lt k (c.key v)) then do
          let x ← free (internalEmplace c t next a)
          pure ((x.1, true), x.2)
        else insertUniqueW c t k a
      else pure ((pos, false), t)

/-- btree::insert_iterator_unique (btree.hpp:2415-2421). -/
def insertAllUniqueW (c : Cfg α κ) (t : Tree α) : List α → Cnt (Tree α)
  | [] => pure t
  | v :: vs => do
    let e ← free t.end
    let x ← insertHintUniqueW c t e (c.key v) (.val v)
    insertAllUniqueW c x.2 vs

/-- btree::insert_multi (btree.hpp:2425-2435). -/
def insertMultiW (c : Cfg α κ) (t : Tree α) (k : κ) (a : Arg α) : Cnt (It × Tree α) := do
  let it ← internalUpperBoundW c (firstRoot t) k
  let it ← free (internalEnd (firstRoot t) it)
  free (internalEmplace c (firstRoot t) it a)

/-- btree::insert_hint_multi (btree.hpp:2439-2460). -/
def insertHintMultiW (c : Cfg α κ) (t : Tree α) (pos : It) (k : κ) (a : Arg α) : Cnt (It × Tree α) :=
  if t.size = 0 then insertMultiW c t k a
  else do
    let e ← free t.end
    let b ← free t.begin
    if ← stopOrAtW t.heap pos e (fun v => !(c.lt (c.key v) k)) then do
      if ← stopOrBeforeW t.heap pos b (fun v => !(c.lt k (c.key v))) then free (internalEmplace c t pos a)
      else insertMultiW c t k a
    else do
      let next ← free (increment t.heap pos)
      if ← stopOrAtW t.heap next e (fun v => !(c.lt (c.key v) k)) then free (internalEmplace c t next a)
      else insertMultiW c t k a

/-- btree::insert_iterator_multi (btree.hpp:2462-2468). -/
def insertAllMultiW (c : Cfg α κ) (t : Tree α) : List α → Cnt (Tree α)
  | [] => pure t
  | v :: vs => do
    let e ← free t.end
    let x ← insertHintMultiW c t e (c.key v) (.val v)
    insertAllMultiW c x.2 vs

/-- btree::erase_unique (btree.hpp:2676-2686). -/
def eraseUniqueW (c : Cfg α κ) (t : Tree α) (k : κ) : Cnt (Nat × Tree α) := do
  match ← internalFindW c t k with
  | none => pure (0, t)
  | some it => do
    let x ← free (eraseIt c t it)
    pure (1, x.2)

/-- btree::erase_multi (btree.hpp:2689-2700). -/
def eraseMultiW (c : Cfg α κ) (t : Tree α) (k : κ) : Cnt (Nat × Tree α) := do
  match ← internalLowerBoundW c t k with
  | none => pure (0, t)
  | some b => do
    let u ← internalUpperBoundW c t k
    let e ← free (internalEnd t u)
    let x ← free (eraseRange c t b e)
    pure (x.1.1, x.2)

/-- The calls that look for a key (`exec`, btree.hpp:3114-3668). The others do not
compare keys: they go from iterator to iterator. -/
def execW (c : Cfg α κ) (t : Tree α) : Op α κ → Cnt (Res α × Tree α)
  | .insert v =>
    if c.multi then do
      let x ← insertMultiW c t (c.key v) (.val v)
      let i ← free (x.2.index x.1)
      pure (.pos i, x.2)
    else do
      let x ← insertUniqueW c t (c.key v) (.val v)
      let i ← free (x.2.index x.1.1)
      pure (.posNew i x.1.2, x.2)
  | .insertHint i v => do
    let hint ← free (t.iterAt i)
    if c.multi then do
      let x ← insertHintMultiW c t hint (c.key v) (.val v)
      let i ← free (x.2.index x.1)
      pure (.pos i, x.2)
    else do
      let x ← insertHintUniqueW c t hint (c.key v) (.val v)
      let i ← free (x.2.index x.1.1)
      pure (.pos i, x.2)
  | .insertAll vs => do
    let t ← (if c.multi then insertAllMultiW c t vs else insertAllUniqueW c t vs)
    pure (.done, t)
  | .eraseKey k => do
    let x ← (if c.multi then eraseMultiW c t k else eraseUniqueW c t k)
    pure (.num x.1, x.2)
  | .extractKey k => do
    let it ← t.findW c k
    free (do
      let e ← t.end
      if it = e then some (.done, t)
      else do
        let (v, t) ← t.extract c it
        some (.val v, t))
  | .find k => do
    let it ← t.findW c k
    let i ← free (t.index it)
    pure (.pos i, t)
  | .contains k => do
    let it ← t.findW c k
    let e ← free t.end
    pure (.bool (it != e), t)
  | .count k =>
    if c.multi then do
      let lo ← t.lowerBoundW c k
      let hi ← t.upperBoundW c k
      let n ← free (distance t.heap t.size lo hi)
      pure (.num n, t)
    else do
      let r ← internalFindW c t k
      pure (.num (if r.isSome then 1 else 0), t)
  | .lowerBound k => do
    let it ← t.lowerBoundW c k
    let i ← free (t.index it)
    pure (.pos i, t)
  | .upperBound k => do
    let it ← t.upperBoundW c k
    let i ← free (t.index it)
    pure (.pos i, t)
  | .equalRange k => do
    let b ← t.lowerBoundW c k
    let e ← t.upperBoundW c k
    let i ← free (t.index b)
    let j ← free (t.index e)
    pure (.range i j, t)
  | op => free (exec c t op)

/-- A sequence of calls, with the comparisons of each. -/
def execAllW (c : Cfg α κ) (t : Tree α) : List (Op α κ) → Option (List (Res α × Nat) × Tree α)
  | [] => some ([], t)
  | op :: ops => do
    let ((r, t), n) ← count (execW c t op)
    let (rs, t) ← execAllW c t ops
    some ((r, n) :: rs, t)

end Gtl.Btree
