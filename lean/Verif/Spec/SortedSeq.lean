import Mathlib.Data.List.Perm.Basic
/-
Sorted sequences: what a user of gtl::btree_set, btree_map, btree_multiset and
btree_multimap relies on. A container is the list of its elements in the order of
iteration. `key` is the part of an element that is compared, `lt` the comparison.
Iterators are indices, `end()` is the length.
-/
namespace Gtl.Spec.SortedSeq
variable {α κ : Type}

/-- A strict weak order, what the standard asks of a comparison. -/
structure StrictWeak (lt : κ → κ → Bool) : Prop where
  irrefl : ∀ a, lt a a = false
  trans : ∀ a b c, lt a b = true → lt b c = true → lt a c = true
  incomp : ∀ a b c, lt a c = true → lt a b = true ∨ lt b c = true

/-- Two keys that neither is less than the other. -/
def KeyEquiv (lt : κ → κ → Bool) (a b : κ) : Prop := lt a b = false ∧ lt b a = false

/-- The elements are in order; without duplicates unless `multi`. -/
def Sorted (multi : Bool) (key : α → κ) (lt : κ → κ → Bool) (l : List α) : Prop :=
  if multi then l.Pairwise fun a b => lt (key b) (key a) = false
  else l.Pairwise fun a b => lt (key a) (key b) = true

/-- The index of the first element not less than `k`. -/
def lower (key : α → κ) (lt : κ → κ → Bool) (l : List α) (k : κ) : Nat := l.countP fun v => lt (key v) k

/-- The index of the first element greater than `k`. -/
def upper (key : α → κ) (lt : κ → κ → Bool) (l : List α) (k : κ) : Nat := l.countP fun v => !lt k (key v)

/-- `k` is equivalent to the key of `v`. -/
def same (key : α → κ) (lt : κ → κ → Bool) (k : κ) (v : α) : Bool := !lt (key v) k && !lt k (key v)

/-- Insertion into a container without duplicates: the place of the element with
that key, whether it is new, and the container after. -/
def addUnique (key : α → κ) (lt : κ → κ → Bool) (l : List α) (v : α) : Nat × Bool × List α :=
  let i := lower key lt l (key v)
  if l.any (same key lt (key v)) then (i, false, l) else (i, true, l.insertIdx i v)

/-- Insertion into a container with duplicates: after those with the same key. -/
def addMulti (key : α → κ) (lt : κ → κ → Bool) (l : List α) (v : α) : Nat × List α :=
  let i := upper key lt l (key v)
  (i, l.insertIdx i v)

/-- merge into a container without duplicates: `l` takes the elements it lacks from
`l'`, which keeps the rest in order. -/
def mergeInto (key : α → κ) (lt : κ → κ → Bool) (l : List α) : List α → List α × List α
  | [] => (l, [])
  | v :: l' =>
    if (addUnique key lt l v).2.1 then mergeInto key lt (addUnique key lt l v).2.2 l'
    else ((mergeInto key lt l l').1, v :: (mergeInto key lt l l').2)

/-- What a caller does with a container. -/
inductive Op (α κ : Type) where
  /-- insert(v), emplace, try_emplace -/
  | insert (v : α)
  /-- insert(hint, v), emplace_hint, with `hint` the `i`-th position -/
  | insertHint (i : Nat) (v : α)
  /-- insert(first, last) of other elements -/
  | insertAll (vs : List α)
  /-- erase(iterator) -/
  | eraseAt (i : Nat)
  /-- erase(first, last) -/
  | eraseRange (i j : Nat)
  /-- erase(key) -/
  | eraseKey (k : κ)
  /-- extract(iterator) -/
  | extractAt (i : Nat)
  /-- extract(key) -/
  | extractKey (k : κ)
  /-- erase_if -/
  | eraseIf (p : α → Bool)
  | find (k : κ)
  | contains (k : κ)
  | count (k : κ)
  | lowerBound (k : κ)
  | upperBound (k : κ)
  | equalRange (k : κ)
  /-- `*it` -/
  | get (i : Nat)
  /-- `it->second = x`: the element becomes `v`, with the same key -/
  | put (i : Nat) (v : α)
  | size
  /-- from begin() to end() -/
  | values
  /-- from rbegin() to rend() -/
  | reversed
  | clear

/-- What the caller gets; iterators by their distance from begin(). -/
inductive Res (α : Type) where
  | done
  | pos (i : Nat)
  | posNew (i : Nat) (b : Bool)
  | range (i j : Nat)
  | num (n : Nat)
  | bool (b : Bool)
  | val (v : α)
  | vals (vs : List α)

/-- Which calls are allowed: iterators of the container, dereferenced or erased
only when not end(), ranges in order, keys left alone. -/
def Ok (key : α → κ) (l : List α) : Op α κ → Prop
  | .insertHint i _ => i ≤ l.length
  | .eraseAt i => i < l.length
  | .extractAt i => i < l.length
  | .eraseRange i j => i ≤ j ∧ j ≤ l.length
  | .get i => i < l.length
  | .put i v => (l[i]?).map key = some (key v)
  | _ => True

/-- What each call answers and leaves. -/
def Step (multi : Bool) (key : α → κ) (lt : κ → κ → Bool) (l : List α) : Op α κ → Res α → List α → Prop
  | .insert v, r, l' =>
    if multi then r = .pos (addMulti key lt l v).1 ∧ l' = (addMulti key lt l v).2
    else r = .posNew (addUnique key lt l v).1 (addUnique key lt l v).2.1 ∧ l' = (addUnique key lt l v).2.2
  | .insertHint i v, r, l' =>
    if multi then
      -- among the elements with the same key, and at the hint if it is there
      ∃ j, lower key lt l (key v) ≤ j ∧ j ≤ upper key lt l (key v) ∧
        (lower key lt l (key v) ≤ i → i ≤ upper key lt l (key v) → j = i) ∧ r = .pos j ∧ l' = l.insertIdx j v
    else r = .pos (addUnique key lt l v).1 ∧ l' = (addUnique key lt l v).2.2
  | .insertAll vs, r, l' => r = .done ∧
    l' = vs.foldl (fun l v => if multi then (addMulti key lt l v).2 else (addUnique key lt l v).2.2) l
  | .eraseAt i, r, l' => r = .pos i ∧ l' = l.eraseIdx i
  | .eraseRange i j, r, l' => r = .pos i ∧ l' = l.take i ++ l.drop j
  | .eraseKey k, r, l' => r = .num (l.countP (same key lt k)) ∧ l' = l.filter fun v => !same key lt k v
  | .extractAt i, r, l' => l' = l.eraseIdx i ∧ ∃ v, l[i]? = some v ∧ r = .val v
  | .extractKey k, r, l' =>
    -- an element with that key, and an empty node handle if there is none
    (r = .done ∧ l' = l ∧ l.any (same key lt k) = false) ∨
      ∃ i v, l[i]? = some v ∧ same key lt k v = true ∧ r = .val v ∧ l' = l.eraseIdx i
  | .eraseIf p, r, l' => r = .done ∧ l' = l.filter fun v => !p v
  | .find k, r, l' => l' = l ∧ ∃ i, r = .pos i ∧
    match l[i]? with
    | some v => same key lt k v = true
    | none => i = l.length ∧ l.any (same key lt k) = false
  | .contains k, r, l' => r = .bool (l.any (same key lt k)) ∧ l' = l
  | .count k, r, l' => r = .num (l.countP (same key lt k)) ∧ l' = l
  | .lowerBound k, r, l' => r = .pos (lower key lt l k) ∧ l' = l
  | .upperBound k, r, l' => r = .pos (upper key lt l k) ∧ l' = l
  | .equalRange k, r, l' => r = .range (lower key lt l k) (upper key lt l k) ∧ l' = l
  | .get i, r, l' => l' = l ∧ ∃ v, l[i]? = some v ∧ r = .val v
  | .put i v, r, l' => r = .done ∧ l' = l.set i v
  | .size, r, l' => r = .num l.length ∧ l' = l
  | .values, r, l' => r = .vals l ∧ l' = l
  | .reversed, r, l' => r = .vals l.reverse ∧ l' = l
  | .clear, r, l' => r = .done ∧ l' = []

/-- A sequence of calls, the answers and the container after. -/
inductive Run (multi : Bool) (key : α → κ) (lt : κ → κ → Bool) : List α → List (Op α κ) → List (Res α) → List α → Prop
  | nil {l} : Run multi key lt l [] [] l
  | cons {l l' l'' op r ops rs} : Step multi key lt l op r l' → Run multi key lt l' ops rs l'' →
      Run multi key lt l (op :: ops) (r :: rs) l''

/-- The caller never makes a call that is not allowed, whatever the answers. -/
def Safe (multi : Bool) (key : α → κ) (lt : κ → κ → Bool) : List α → List (Op α κ) → Prop
  | _, [] => True
  | l, op :: ops => Ok key l op ∧ ∀ r l', Step multi key lt l op r l' → Safe multi key lt l' ops

/-! ### Several containers -/

/-- What a caller does with several containers of one type, given by number. -/
inductive WOp (α κ : Type) where
  /-- a call on container `i` -/
  | on (i : Nat) (op : Op α κ)
  /-- a new container -/
  | make
  /-- a new container, copied from container `i` -/
  | copy (i : Nat)
  /-- container `i` = container `j` -/
  | assign (i j : Nat)
  /-- container `i` = std::move(container `j`) -/
  | move (i j : Nat)
  | swap (i j : Nat)
  /-- container `i`.merge(container `j`) -/
  | merge (i j : Nat)
  /-- container `i` == container `j` -/
  | eq (i j : Nat)
  /-- container `i` < container `j` -/
  | less (i j : Nat)

/-- Which calls are allowed. -/
def WOk (key : α → κ) (w : List (List α)) : WOp α κ → Prop
  | .on i op => ∃ l, w[i]? = some l ∧ Ok key l op
  | .make => True
  | .copy i => i < w.length
  | .assign i j | .move i j | .swap i j | .eq i j | .less i j => i < w.length ∧ j < w.length
  | .merge i j => i < w.length ∧ j < w.length ∧ i ≠ j

/-- Lexicographical comparison, with `less` the < of the elements. -/
def lexLess (less : α → α → Bool) : List α → List α → Bool
  | [], [] => false
  | [], _ :: _ => true
  | _ :: _, [] => false
  | a :: as, b :: bs => if less a b then true else if less b a then false else lexLess less as bs

/-- What each call answers and leaves, with `eq` and `less` the == and < of the
elements. -/
def WStep (multi : Bool) (key : α → κ) (lt : κ → κ → Bool) (eq less : α → α → Bool) (w : List (List α)) :
    WOp α κ → Res α → List (List α) → Prop
  | .on i op, r, w' => ∃ l l', w[i]? = some l ∧ Step multi key lt l op r l' ∧ w' = w.set i l'
  | .make, r, w' => r = .num w.length ∧ w' = w ++ [[]]
  | .copy i, r, w' => ∃ l, w[i]? = some l ∧ r = .num w.length ∧ w' = w ++ [l]
  | .assign i j, r, w' => ∃ l, w[j]? = some l ∧ r = .done ∧ w' = w.set i l
  | .move i j, r, w' => ∃ l, w[j]? = some l ∧ r = .done ∧ w' = if i = j then w else (w.set i l).set j []
  | .swap i j, r, w' => ∃ l l', w[i]? = some l ∧ w[j]? = some l' ∧ r = .done ∧ w' = (w.set i l').set j l
  | .merge i j, r, w' => ∃ l l', w[i]? = some l ∧ w[j]? = some l' ∧ r = .done ∧
    w' = if multi then (w.set i (l'.foldl (fun l v => (addMulti key lt l v).2) l)).set j []
      else (w.set i (mergeInto key lt l l').1).set j (mergeInto key lt l l').2
  | .eq i j, r, w' => ∃ l l', w[i]? = some l ∧ w[j]? = some l' ∧ w' = w ∧
    r = .bool (decide (l.length = l'.length) && (l.zip l').all fun x => eq x.1 x.2)
  | .less i j, r, w' => ∃ l l', w[i]? = some l ∧ w[j]? = some l' ∧ w' = w ∧ r = .bool (lexLess less l l')

/-- A sequence of calls on several containers. -/
inductive WRun (multi : Bool) (key : α → κ) (lt : κ → κ → Bool) (eq less : α → α → Bool) :
    List (List α) → List (WOp α κ) → List (Res α) → List (List α) → Prop
  | nil {w} : WRun multi key lt eq less w [] [] w
  | cons {w w' w'' op r ops rs} : WStep multi key lt eq less w op r w' → WRun multi key lt eq less w' ops rs w'' →
      WRun multi key lt eq less w (op :: ops) (r :: rs) w''

/-- The caller never makes a call that is not allowed, whatever the answers. -/
def WSafe (multi : Bool) (key : α → κ) (lt : κ → κ → Bool) (eq less : α → α → Bool) : List (List α) → List (WOp α κ) → Prop
  | _, [] => True
  | w, op :: ops => WOk key w op ∧ ∀ r w', WStep multi key lt eq less w op r w' → WSafe multi key lt eq less w' ops

end Gtl.Spec.SortedSeq
