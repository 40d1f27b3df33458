/-
Specification of sequence containers: any number of named sequences, changed by the operations of
`std::vector`. Nothing here mentions memory.
-/
namespace Gtl.Spec.Seq

variable {α : Type}

/-- The containers that exist, with their elements. -/
abbrev Env (α : Type) := Nat → Option (List α)

/-- An argument: a value, or a reference to element `k` of container `j`. -/
inductive Arg (α : Type) where
  | ext (a : α)
  | elem (j k : Nat)

/-- The operations. Range arguments are given as the list of what the iterators refer to; `input`
says that the iterators can be used only once. -/
inductive Op (α : Type) where
  | create (i : Nat)
  | createSized (i n : Nat)
  | createFill (i n : Nat) (x : Arg α)
  | createRange (i : Nat) (xs : List (Arg α)) (input : Bool)
  | createCopy (i j : Nat)
  | createMove (i j : Nat)
  | drop (i : Nat)
  | copyAssign (i j : Nat)
  | moveAssign (i j : Nat)
  | swap (i j : Nat)
  | pushBack (i : Nat) (x : Arg α)
  | popBack (i : Nat)
  | clear (i : Nat)
  | reserve (i n : Nat)
  | shrinkToFit (i : Nat)
  | resize (i n : Nat)
  | resizeWith (i n : Nat) (x : Arg α)
  | assignFill (i n : Nat) (x : Arg α)
  | assignRange (i : Nat) (xs : List (Arg α)) (input : Bool)
  | insert (i pos : Nat) (x : Arg α)
  | emplace (i pos : Nat) (x : Arg α)
  | insertFill (i pos n : Nat) (x : Arg α)
  | insertRange (i pos : Nat) (xs : List (Arg α)) (input : Bool)
  | erase (i first last : Nat)
  | eraseIf (i : Nat) (p : α → Bool)
  | write (i k : Nat) (x : Arg α)
  | size (i : Nat)
  | index (i k : Nat)
  | at_ (i k : Nat)
  | front (i : Nat)
  | back (i : Nat)
  | equal (i j : Nat) (eq : α → α → Bool)
  | less (i j : Nat) (lt : α → α → Bool)

/-- What an operation returns. Iterators are given as positions. -/
inductive Ans (α : Type) where
  | unit
  | val (a : α)
  | num (n : Nat)
  | bool (b : Bool)

def put (σ : Env α) (i : Nat) (l : Option (List α)) : Env α := fun j => if j = i then l else σ j

/-- The value of an argument, if the element exists. -/
def Arg.value (σ : Env α) : Arg α → Option α
  | .ext a => some a
  | .elem j k => (σ j).bind (·[k]?)

def values (σ : Env α) : List (Arg α) → Option (List α)
  | [] => some []
  | x :: xs => (x.value σ).bind fun a => (values σ xs).map (a :: ·)

/-- Is the argument an element of container `i`? -/
def Arg.inside (i : Nat) : Arg α → Bool
  | .ext _ => false
  | .elem j _ => j == i

/-- A new container. -/
def make (σ : Env α) (i : Nat) (l : List α) : Option (Env α × Ans α) :=
  if (σ i).isSome then none else some (put σ i (some l), .unit)

def insertAt (l : List α) (pos : Nat) (as : List α) : List α := l.take pos ++ as ++ l.drop pos

def all2 (eq : α → α → Bool) : List α → List α → Bool
  | a :: l, b :: m => eq a b && all2 eq l m
  | [], [] => true
  | _, _ => false

/-- Lexicographical order. -/
def lexLess (lt : α → α → Bool) : List α → List α → Bool
  | _, [] => false
  | [], _ :: _ => true
  | a :: l, b :: m => if lt a b then true else if lt b a then false else lexLess lt l m

/-- The effect and result of an operation that ends normally. `none`: the caller must not do this
(a container or element that does not exist, a position out of range, a range of the container's
own elements). `dflt` is a value-initialised element. Move assignment leaves the elements of the
target in the source; the standard only asks for some elements. -/
def effect (dflt : α) (σ : Env α) : Op α → Option (Env α × Ans α)
  | .create i => make σ i []
  | .createSized i n => make σ i (List.replicate n dflt)
  | .createFill i n x => (x.value σ).bind fun a => make σ i (List.replicate n a)
  | .createRange i xs _ => (values σ xs).bind fun as => make σ i as
  | .createCopy i j => (σ j).bind fun m => make σ i m
  | .createMove i j => (σ j).bind fun m => (make σ i m).map fun r => (put r.1 j (some []), r.2)
  | .drop i => (σ i).map fun _ => (put σ i none, .unit)
  | .copyAssign i j => (σ i).bind fun _ => (σ j).map fun m => (put σ i (some m), .unit)
  | .moveAssign i j => (σ i).bind fun l => (σ j).map fun m => (put (put σ j (some l)) i (some m), .unit)
  | .swap i j => (σ i).bind fun l => (σ j).map fun m => (put (put σ j (some l)) i (some m), .unit)
  | .pushBack i x => (σ i).bind fun l => (x.value σ).map fun a => (put σ i (some (l ++ [a])), .unit)
  | .popBack i => (σ i).bind fun l => if l = [] then none else some (put σ i (some l.dropLast), .unit)
  | .clear i => (σ i).map fun _ => (put σ i (some []), .unit)
  | .reserve i _ => (σ i).map fun _ => (σ, .unit)
  | .shrinkToFit i => (σ i).map fun _ => (σ, .unit)
  | .resize i n => (σ i).map fun l => (put σ i (some (l.take n ++ List.replicate (n - l.length) dflt)), .unit)
  | .resizeWith i n x => (σ i).bind fun l => (x.value σ).map fun a =>
      (put σ i (some (l.take n ++ List.replicate (n - l.length) a)), .unit)
  | .assignFill i n x => (σ i).bind fun _ => (x.value σ).map fun a => (put σ i (some (List.replicate n a)), .unit)
  | .assignRange i xs _ => (σ i).bind fun _ =>
      if xs.any (Arg.inside i) then none
      else (values σ xs).map fun as => (put σ i (some as), .unit)
  | .insert i pos x => (σ i).bind fun l => (x.value σ).bind fun a =>
      if pos ≤ l.length then some (put σ i (some (insertAt l pos [a])), .num pos) else none
  | .emplace i pos x => (σ i).bind fun l => (x.value σ).bind fun a =>
      if pos ≤ l.length then some (put σ i (some (insertAt l pos [a])), .num pos) else none
  | .insertFill i pos n x => (σ i).bind fun l => (x.value σ).bind fun a =>
      if pos ≤ l.length then some (put σ i (some (insertAt l pos (List.replicate n a))), .num pos) else none
  | .insertRange i pos xs _ => (σ i).bind fun l =>
      if xs.any (Arg.inside i) then none
      else (values σ xs).bind fun as =>
        if pos ≤ l.length then some (put σ i (some (insertAt l pos as)), .num pos) else none
  | .erase i first last => (σ i).bind fun l =>
      if first ≤ last ∧ last ≤ l.length then some (put σ i (some (l.take first ++ l.drop last)), .num first) else none
  | .eraseIf i p => (σ i).map fun l => (put σ i (some (l.filter fun a => !p a)), .unit)
  | .write i k x => (σ i).bind fun l => (x.value σ).bind fun a =>
      if k < l.length then some (put σ i (some (l.set k a)), .unit) else none
  | .size i => (σ i).map fun l => (σ, .num l.length)
  | .index i k => (σ i).bind fun l => l[k]?.map fun a => (σ, .val a)
  | .at_ i k => (σ i).bind fun l => l[k]?.map fun a => (σ, .val a)
  | .front i => (σ i).bind fun l => l.head?.map fun a => (σ, .val a)
  | .back i => (σ i).bind fun l => l.getLast?.map fun a => (σ, .val a)
  | .equal i j eq => (σ i).bind fun l => (σ j).map fun m => (σ, .bool (all2 eq l m))
  | .less i j lt => (σ i).bind fun l => (σ j).map fun m => (σ, .bool (lexLess lt l m))

/-- `at` with an index out of range. -/
def outOfRange (σ : Env α) : Op α → Bool
  | .at_ i k => match σ i with
    | some l => l.length ≤ k
    | none => false
  | _ => false

/-- May this operation be called? -/
def Allowed (dflt : α) (σ : Env α) (op : Op α) : Prop := (effect dflt σ op).isSome ∨ outOfRange σ op

/-- The container an operation changes. -/
def target : Op α → Nat
  | .create i | .createSized i _ | .createFill i _ _ | .createRange i _ _ | .createCopy i _ | .createMove i _
  | .drop i | .copyAssign i _ | .moveAssign i _ | .swap i _ | .pushBack i _ | .popBack i | .clear i
  | .reserve i _ | .shrinkToFit i | .resize i _ | .resizeWith i _ _ | .assignFill i _ _ | .assignRange i _ _
  | .insert i _ _ | .emplace i _ _ | .insertFill i _ _ _ | .insertRange i _ _ _ | .erase i _ _ | .eraseIf i _
  | .write i _ _ | .size i | .index i _ | .at_ i _ | .front i | .back i | .equal i _ _ | .less i _ _ => i

/-- The operations with the strong exception guarantee: when they throw, nothing has changed. -/
def strong (σ : Env α) : Op α → Bool
  | .create _ | .createSized _ _ | .createFill _ _ _ | .createRange _ _ _ | .createCopy _ _
  | .pushBack _ _ | .reserve _ _ | .resize _ _ | .resizeWith _ _ _ | .at_ _ _ => true
  | .insert i pos _ | .emplace i pos _ | .insertFill i pos _ _ | .insertRange i pos _ false => ((σ i).map List.length) == some pos
  | _ => false

/-- The operations that never throw. -/
def noexcept : Op α → Bool
  | .create _ | .createMove _ _ | .drop _ | .moveAssign _ _ | .swap _ _ | .popBack _ | .clear _ | .shrinkToFit _ | .size _
  | .index _ _ | .front _ | .back _ | .equal _ _ _ | .less _ _ _ => true
  | _ => false

/-- What an operation that throws leaves: all other containers are as before, and the target
contains some elements (or does not exist, if it was to be created); with the strong guarantee
nothing has changed. `safe` says that the elements can be copied or can be moved without exceptions;
otherwise the strong guarantee only fixes the number of elements. -/
structure AfterThrow (safe : Prop) (σ : Env α) (op : Op α) (σ' : Env α) : Prop where
  throws : noexcept op = false
  others : ∀ j, j ≠ target op → σ' j = σ j
  exist : (σ' (target op)).isSome = (σ (target op)).isSome
  size : strong σ op = true → (σ' (target op)).map List.length = (σ (target op)).map List.length
  strong : safe → strong σ op = true → σ' = σ

end Gtl.Spec.Seq
