/-!
# Specification: an associative container

This file knows nothing about hash tables.  A container is a list of elements, at most one per key (up to the
user's key equality `eqv`); the order of the list carries no meaning.  `key` gives the key of an element.  For a
set `α = κ` and `key = id`; for a map `α = κ × ν` and `key = Prod.fst`.
-/

namespace Gtl.Spec

variable {α κ : Type}

section
variable (key : α → κ) (eqv : κ → κ → Bool)

/-- The element with a key equal to `k`, if any. -/
def lookup (l : List α) (k : κ) : Option α := l.find? (fun a => eqv (key a) k)

/-- Add `a` unless its key is already present. -/
def insert (l : List α) (a : α) : List α :=
  match lookup key eqv l (key a) with
  | some _ => l
  | none => a :: l

/-- Remove the element with key `k`. -/
def erase (l : List α) (k : κ) : List α := l.filter (fun a => !eqv (key a) k)

/-- Change the element with key `k`, if any, by `f`. -/
def modify (l : List α) (k : κ) (f : α → α) : List α := l.map (fun b => if eqv (key b) k then f b else b)

end

/-- Operations on one container.  `insert` stands for `insert`, `emplace`, `try_emplace` and `lazy_emplace`.
The `f` of `insertOrAssign` is the assignment to the mapped value of an element that is already there; the `f`
of `subscript` is what the user does through the reference returned by `operator[]` (`a` is the element that is
created when the key is absent). -/
inductive Op (α κ : Type) where
  | insert (a : α)
  | insertOrAssign (a : α) (f : α → α)
  | subscript (a : α) (f : α → α)
  | at (k : κ)
  | find (k : κ)
  | contains (k : κ)
  | count (k : κ)
  | erase (k : κ)
  | eraseIf (p : α → Bool)
  | extract (k : κ)
  | insertNode (n : Option α)
  | toggle (a : α)
  | insertRange (vs : List α)
  | size
  | clear
  | reserve (n : Nat)
  | rehash (n : Nat)

/-- What the caller sees. -/
inductive Resp (α : Type) where
  | unit
  | bool (b : Bool)
  | nat (n : Nat)
  /-- an element, or `end()` / an exception / an empty node -/
  | elem (o : Option α)
  /-- the element the returned iterator refers to, and the `bool` of the returned pair -/
  | ins (a : α) (inserted : Bool)
  /-- result of a node insertion: element at the returned position, flag, node handle afterwards -/
  | node (o : Option α) (inserted : Bool) (left : Option α)
  deriving DecidableEq

/-- Operations on a family of containers (numbered by `Nat`). -/
inductive WOp (α κ : Type) where
  | on (i : Nat) (op : Op α κ)
  /-- `c_i = Container(n)` -/
  | create (i n : Nat)
  /-- `c_i = c_j` -/
  | copy (i j : Nat)
  /-- `c_i = std::move(c_j)` -/
  | move (i j : Nat)
  | swap (i j : Nat)
  /-- `c_i.merge(c_j)` -/
  | merge (i j : Nat)
  /-- `c_i == c_j` -/
  | equal (i j : Nat)

section
variable (key : α → κ) (eqv : κ → κ → Bool)

/-- Effect and answer of one operation. -/
def step (l : List α) : Op α κ → List α × Resp α
  | .insert a => match lookup key eqv l (key a) with
    | some b => (l, .ins b false)
    | none => (a :: l, .ins a true)
  | .insertOrAssign a f => match lookup key eqv l (key a) with
    | some b => (modify key eqv l (key a) f, .ins (f b) false)
    | none => (a :: l, .ins a true)
  | .subscript a f => match lookup key eqv l (key a) with
    | some b => (modify key eqv l (key a) f, .elem (some b))
    | none => (f a :: l, .elem (some a))
  | .at k => (l, .elem (lookup key eqv l k))
  | .find k => (l, .elem (lookup key eqv l k))
  | .contains k => (l, .bool (l.any (fun a => eqv (key a) k)))
  | .count k => (l, .nat (l.countP (fun a => eqv (key a) k)))
  | .erase k => (erase key eqv l k, .nat (l.countP (fun a => eqv (key a) k)))
  | .eraseIf p => (l.filter (fun a => !p a), .nat (l.countP p))
  | .extract k => (erase key eqv l k, .elem (lookup key eqv l k))
  | .insertNode none => (l, .node none false none)
  | .insertNode (some a) => match lookup key eqv l (key a) with
    | some b => (l, .node (some b) false (some a))
    | none => (a :: l, .node (some a) true none)
  | .toggle a => match lookup key eqv l (key a) with
    | some _ => (erase key eqv l (key a), .unit)
    | none => (a :: l, .unit)
  | .insertRange vs => (vs.foldl (insert key eqv) l, .unit)
  | .size => (l, .nat l.length)
  | .clear => ([], .unit)
  | .reserve _ => (l, .unit)
  | .rehash _ => (l, .unit)

/-- A history on one container. -/
def run (l : List α) : List (Op α κ) → List α × List (Resp α)
  | [] => (l, [])
  | op :: ops =>
    let r := step key eqv l op
    let s := run r.1 ops
    (s.1, r.2 :: s.2)

/-- Replace container `i`. -/
def put {β : Type} (w : Nat → β) (i : Nat) (x : β) : Nat → β := fun j => if j = i then x else w j

def wstep [BEq α] (w : Nat → List α) : WOp α κ → (Nat → List α) × Resp α
  | .on i op => let r := step key eqv (w i) op; (put w i r.1, r.2)
  | .create i _ => (put w i [], .unit)
  | .copy i j => (put w i (w j), .unit)
  | .move i j => (put (put w j []) i (w j), .unit)
  | .swap i j => (put (put w i (w j)) j (w i), .unit)
  | .merge i j =>
    (put (put w i (w i ++ (w j).filter (fun a => !(w i).any (fun b => eqv (key b) (key a)))))
        j ((w j).filter (fun a => (w i).any (fun b => eqv (key b) (key a)))), .unit)
  | .equal i j => (w, .bool ((w i).isPerm (w j)))

/-- A whole history. -/
def wrun [BEq α] (w : Nat → List α) : List (WOp α κ) → (Nat → List α) × List (Resp α)
  | [] => (w, [])
  | op :: ops =>
    let r := wstep key eqv w op
    let s := wrun r.1 ops
    (s.1, r.2 :: s.2)

/-- Preconditions of the operations: element changes keep the key; the sizes passed to `reserve` / `rehash` are
not zero (see the refutation of the property for zero); a container is not merged with itself. -/
def Op.Valid : Op α κ → Prop
  | .insertOrAssign _ f => ∀ b, key (f b) = key b
  | .subscript _ f => ∀ b, key (f b) = key b
  | .reserve n => n ≠ 0
  | .rehash n => n ≠ 0
  | _ => True

def WOp.Valid : WOp α κ → Prop
  | .on _ op => Op.Valid key op
  | .merge i j => i ≠ j
  | _ => True

end
end Gtl.Spec
