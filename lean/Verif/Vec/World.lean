import Verif.Vec.Model
import Verif.Spec.Seq
/-
Programs that use any number of vectors.
-/
namespace Gtl.Vec
open M Gtl.Spec.Seq

variable {α β : Type}

/-- The memory and the vectors that exist. -/
structure World (α : Type) where
  mem : Nat → Nat → Option α
  len : Nat → Option Nat
  next : Nat
  luck : Nat → Bool
  vecs : Nat → Option Vec

/-- The beginning: no memory in use, no vector. -/
def World.init (luck : Nat → Bool) : World α := ⟨fun _ _ => none, fun _ => none, 0, luck, fun _ => none⟩

/-- What operations on the vector `v` work on. -/
def World.state (w : World α) (v : Vec) : St α := ⟨w.mem, w.len, w.next, w.luck, v⟩

/-- The world after an operation that has left `s`. -/
def World.after (w : World α) (i : Nat) (s : St α) (v : Option Vec) : World α :=
  ⟨s.mem, s.len, s.next, s.luck, fun j => if j = i then v else w.vecs j⟩

/-- A member function of vector `i`. -/
def World.on (w : World α) (i : Nat) (m : M α (Ans α)) : Out (World α) (Ans α) :=
  match w.vecs i with
  | none => .ub
  | some v =>
    match m (w.state v) with
    | .ok b s => .ok b (w.after i s (some s.vec))
    | .thrown x s => .thrown x (w.after i s (some s.vec))
    | .ub => .ub

/-- A constructor for vector `i`. `impl_` begins with null pointers (vector.hpp 113-132); when a
constructor throws there is no vector. -/
def World.make (w : World α) (i : Nat) (m : M α (Ans α)) : Out (World α) (Ans α) :=
  match w.vecs i with
  | some _ => .ub
  | none =>
    match m (w.state ⟨none, 0, 0⟩) with
    | .ok b s => .ok b (w.after i s (some s.vec))
    | .thrown x s => .thrown x (w.after i s none)
    | .ub => .ub

/-- The destructor (vector.hpp 145). -/
def World.destruct (t : Traits α) (w : World α) (i : Nat) : Out (World α) (Ans α) :=
  match w.vecs i with
  | none => .ub
  | some v =>
    match destroyAll t (w.state v) with
    | .ok _ s => .ok .unit (w.after i s none)
    | .thrown x s => .thrown x (w.after i s none)
    | .ub => .ub

/-- A reference to what the caller passes. -/
def World.src (w : World α) : Arg α → Option (Src α)
  | .ext a => some (.val a)
  | .elem j k => (w.vecs j).bind fun v => if k < v.e then some (.ref v.b k) else none

/-- References to what the caller passes. -/
def World.srcs (w : World α) : List (Arg α) → Option (List (Src α))
  | [] => some []
  | x :: xs => (w.src x).bind fun y => (w.srcs xs).map (y :: ·)

/-- A call with an argument that may be an element of a vector. -/
def World.arg (w : World α) (x : Arg α) (f : Src α → Out (World α) (Ans α)) : Out (World α) (Ans α) :=
  match w.src x with
  | some y => f y
  | none => .ub

/-- A call with several such arguments. -/
def World.args (w : World α) (xs : List (Arg α)) (f : List (Src α) → Out (World α) (Ans α)) : Out (World α) (Ans α) :=
  match w.srcs xs with
  | some ys => f ys
  | none => .ub

/-- A call with another vector as argument. -/
def World.other (w : World α) (j : Nat) (f : Vec → Out (World α) (Ans α)) : Out (World α) (Ans α) :=
  match w.vecs j with
  | some v => f v
  | none => .ub

/-- `m`, returning nothing. -/
def quiet (m : M α β) : M α (Ans α) := do
  let _ ← m
  return .unit

/-- `m`, returning a position. -/
def place_ (m : M α Nat) : M α (Ans α) := do
  let n ← m
  return .num n

/-- `m`, returning a value. -/
def value (m : M α α) : M α (Ans α) := do
  let a ← m
  return .val a

/-- `std::equal` (vector.hpp 1548-1550). -/
def equalLoop (eq : α → α → Bool) (p q : Option Nat) : Nat → Nat → M α Bool
  | _, 0 => return true
  | i, n + 1 => do
    let a ← get p i
    let b ← get q i
    if eq a b then equalLoop eq p q (i + 1) n else return false

/-- `operator==` (vector.hpp 1548-1550). -/
def equal (eq : α → α → Bool) (o : Vec) : M α Bool := do
  let v ← self
  if v.e = o.e then equalLoop eq v.b o.b 0 v.e else return false

/-- `std::lexicographical_compare`: `n` elements left of the vector, `m` of the other. -/
def lessLoop (lt : α → α → Bool) (p q : Option Nat) : Nat → Nat → Nat → M α Bool
  | _, _, 0 => return false
  | _, 0, _ + 1 => return true
  | i, n + 1, m + 1 => do
    let a ← get p i
    let b ← get q i
    if lt a b then return true
    else if lt b a then return false
    else lessLoop lt p q (i + 1) n m

/-- `operator<` (vector.hpp 1554-1556). -/
def less (lt : α → α → Bool) (o : Vec) : M α Bool := do
  let v ← self
  lessLoop lt v.b o.b 0 v.e o.e

/-- `vector(vector&&)` (vector.hpp 693-694, 134-141). -/
def World.moveTo (w : World α) (i j : Nat) : Out (World α) (Ans α) :=
  match w.vecs i, w.vecs j with
  | none, some v => .ok .unit { w with vecs := fun k => if k = j then some ⟨none, 0, 0⟩ else if k = i then some v else w.vecs k }
  | _, _ => .ub

/-- `swap` (vector.hpp 166-170, 219-225, 1096-1102), and `operator=(vector&&)` (754-760) which
is `moveFrom` with `moveIsSwap` (251, 815) for the standard allocator. -/
def World.exchange (w : World α) (i j : Nat) : Out (World α) (Ans α) :=
  match w.vecs i, w.vecs j with
  | some u, some v => .ok .unit { w with vecs := fun k => if k = i then some v else if k = j then some u else w.vecs k }
  | _, _ => .ub

/-- One operation. `write` is an assignment through a reference or iterator, the user's own code. -/
def step (t : Traits α) (w : World α) : Op α → Out (World α) (Ans α)
  | .create i => w.make i (return .unit)
  | .createSized i n => w.make i (quiet (newSized t n))
  | .createFill i n x => w.arg x fun y => w.make i (quiet (newFill t n y))
  | .createRange i xs input => w.args xs fun ys =>
      w.make i (quiet (if input then newInput t ys else newForward t ys))
  | .createCopy i j => w.other j fun o => w.make i (quiet (newCopy t o))
  | .createMove i j => w.moveTo i j
  | .drop i => w.destruct t i
  | .copyAssign i j => w.other j fun o => w.on i (if i = j then return .unit else quiet (copyAssign t o))
  | .moveAssign i j => w.exchange i j
  | .swap i j => w.exchange i j
  | .pushBack i x => w.arg x fun y => w.on i (quiet (pushBack t y))
  | .popBack i => w.on i (quiet (popBack t))
  | .clear i => w.on i (quiet (clear t))
  | .reserve i n => w.on i (quiet (reserve t n))
  | .shrinkToFit i => w.on i (quiet (shrinkToFit t))
  | .resize i n => w.on i (quiet (resize t n))
  | .resizeWith i n x => w.arg x fun y => w.on i (quiet (resizeWith t n y))
  | .assignFill i n x => w.arg x fun y => w.on i (quiet (assignFill t n y))
  | .assignRange i xs input => w.args xs fun ys =>
      w.on i (quiet (if input then assignInput t ys else assignForward t ys))
  | .insert i pos x => w.arg x fun y => w.on i (place_ (insertOne t pos y))
  | .emplace i pos x => w.arg x fun y => w.on i (place_ (emplace t pos y))
  | .insertFill i pos n x => w.arg x fun y => w.on i (place_ (insertFill t pos n y))
  | .insertRange i pos xs input => w.args xs fun ys =>
      w.on i (place_ (if input then insertInput t pos ys else insertForward t pos ys))
  | .erase i first last => w.on i (place_ (erase t first last))
  | .eraseIf i p => w.on i (quiet (eraseIf t p))
  | .write i k x => w.arg x fun y => w.on i (do
      let v ← self
      assignAt t v.b k y
      return .unit)
  | .size i => w.on i (do let v ← self; return .num v.e)
  | .index i k => w.on i (value (index k))
  | .at_ i k => w.on i (value (at_ k))
  | .front i => w.on i (value front)
  | .back i => w.on i (value back)
  | .equal i j eq => w.other j fun o => w.on i (do let b ← equal eq o; return .bool b)
  | .less i j lt => w.other j fun o => w.on i (do let b ← less lt o; return .bool b)

end Gtl.Vec
